import Verif.Sweep.Props

/-! # The sweep: crossings (C35) and leaving (C36) -/

namespace Verif.Sweep
open Verif.Curve Verif.Range Verif.Topo
set_option linter.unusedSectionVars false

variable {K : Type} [LinearOrder K] {E : Env K}

/-- Just below the height `y` the comparison says that `a` is strictly to the left of `b`. -/
def DefLeft (E : Env K) (y : K) (a b : Nat) : Prop := ∃ p, (E.cmp a b).iter.find? (fun p => decide (y < p.hi)) = some p ∧ p.order = .left

theorem mem_selIdx {α : Type} {p : Nat → Bool} {l : List α} {k : Nat} {a : α} :
    a ∈ selIdx p k l ↔ ∃ i, l[i]? = some a ∧ p (k + i) = true := by
  induction l generalizing k with
  | nil => simp [selIdx]
  | cons b l ih =>
    have key : (∃ i, (b :: l)[i]? = some a ∧ p (k + i) = true) ↔ (b = a ∧ p k = true) ∨ ∃ i, l[i]? = some a ∧ p (k + 1 + i) = true := by
      constructor
      · rintro ⟨i, h1, h2⟩
        cases i with
        | zero => left; exact ⟨by simpa using h1, h2⟩
        | succ i => right; exact ⟨i, by simpa using h1, by rw [show k + 1 + i = k + (i + 1) by omega]; exact h2⟩
      · rintro (⟨h1, h2⟩ | ⟨i, h1, h2⟩)
        · exact ⟨0, by simp [h1], h2⟩
        · exact ⟨i + 1, by simpa using h1, by rw [show k + (i + 1) = k + 1 + i by omega]; exact h2⟩
    rw [key, ← ih]
    rw [selIdx]
    by_cases hp : p k = true
    · rw [if_pos hp, List.mem_cons]
      constructor
      · rintro (rfl | h)
        · exact .inl ⟨rfl, hp⟩
        · exact .inr h
      · rintro (⟨rfl, _⟩ | h)
        · exact .inl rfl
        · exact .inr h
    · rw [if_neg hp]
      constructor
      · exact .inr
      · rintro (⟨_, h⟩ | h)
        · exact absurd h hp
        · exact h

theorem selIdx_sublist {α : Type} (p : Nat → Bool) (l : List α) : ∀ k, (selIdx p k l).Sublist l := by
  induction l with
  | nil => intro k; exact List.Sublist.refl _
  | cons b l ih =>
    intro k
    unfold selIdx
    split_ifs
    · exact (ih _).cons_cons _
    · exact (ih _).cons _

/-- `a` comes before `b` on the line. -/
def Precedes (line : List Entry) (a b : Nat) : Prop :=
  ∃ (i j : Nat) (e f : Entry), i < j ∧ line[i]? = some e ∧ line[j]? = some f ∧ e.seg = a ∧ f.seg = b

theorem Precedes.of_pairwise {line : List Entry} {R : Entry → Entry → Prop} (h : line.Pairwise R) {i j : Nat} {e f : Entry} (hij : i < j)
    (he : line[i]? = some e) (hf : line[j]? = some f) : R e f := by
  rw [List.pairwise_iff_getElem] at h
  obtain ⟨hi, rfl⟩ := List.getElem?_eq_some_iff.1 he
  obtain ⟨hj, rfl⟩ := List.getElem?_eq_some_iff.1 hf
  exact h i j hi hj hij

theorem markOld_marks {line : List Entry} {a b i : Nat} {e : Entry} (h : (markOld line a b)[i]? = some e) :
    ∃ f, line[i]? = some f ∧ f.core = e.core := by
  rw [markOld_get, Option.map_eq_some_iff] at h
  obtain ⟨f, h1, h2⟩ := h
  refine ⟨f, h1, ?_⟩
  rw [← h2]
  split_ifs
  · unfold Entry.setOld
    split_ifs <;> rfl
  · rfl

theorem markOld_core (line : List Entry) (a b : Nat) : (markOld line a b).map Entry.core = line.map Entry.core := by
  apply List.ext_getElem?
  intro i
  rw [List.getElem?_map, List.getElem?_map]
  cases h : (markOld line a b)[i]? with
  | none =>
    have := List.getElem?_eq_none_iff.1 h
    rw [markOld_length] at this
    rw [List.getElem?_eq_none this]
  | some e =>
    obtain ⟨f, h1, h2⟩ := markOld_marks h
    rw [h1, Option.map_some, Option.map_some, h2]

/-- The three parts of the line. -/
theorem parts (line : List Entry) {l r : Nat} (h : l ≤ r + 1) :
    line = line.take l ++ ((line.drop l).take (r + 1 - l) ++ line.drop (r + 1)) := by
  have : line.drop (r + 1) = (line.drop l).drop (r + 1 - l) := by rw [List.drop_drop]; congr 1; omega
  rw [this, List.take_append_drop, List.take_append_drop]

theorem Moved.perm {line line' : List Entry} {l r : Nat} {moves : List Nat} (h : Moved line line' l r moves) :
    (line'.map Entry.core).Perm (line.map Entry.core) := by
  rw [← markOld_core line l (r + 1)]
  refine List.Perm.map _ ?_
  rw [h.line_eq]
  have h0 := h.lt
  conv_rhs => rw [parts (markOld line l (r + 1)) (l := l) (r := r) (by omega)]
  rw [List.append_assoc, List.append_assoc]
  refine List.Perm.append_left _ ?_
  rw [← List.append_assoc]
  exact (selIdx_perm _ _ _).append_right _

/-- A relation holds along the new line if it holds along the old one and for the pairs that change places. -/
theorem Moved.pairwise {line line' : List Entry} {l r : Nat} {moves : List Nat} (h : Moved line line' l r moves) {R : Entry → Entry → Prop}
    (h1 : (markOld line l (r + 1)).Pairwise R)
    (h2 : ∀ (i j : Nat) (e f : Entry), l ≤ i → i ≤ r → i ∉ moves → j ∈ moves → j < i → (markOld line l (r + 1))[i]? = some e →
      (markOld line l (r + 1))[j]? = some f → R e f) : line'.Pairwise R := by
  rw [h.line_eq]
  have h0 := h.lt
  have hr := h.len
  generalize hline1 : markOld line l (r + 1) = line1 at *
  have hlen : line1.length = line.length := by rw [← hline1, markOld_length]
  have h1' := h1
  rw [parts line1 (l := l) (r := r) (by omega), List.pairwise_append, List.pairwise_append] at h1'
  obtain ⟨p1, ⟨p2, p3, p4⟩, p5⟩ := h1'
  have hX : ∀ (k : Nat) (e : Entry), ((line1.drop l).take (r + 1 - l))[k]? = some e → line1[l + k]? = some e ∧ l + k ≤ r := by
    intro k e he
    have hk := (List.getElem?_eq_some_iff.1 he).1
    rw [List.length_take] at hk
    rw [List.getElem?_take_of_lt (by omega), List.getElem?_drop] at he
    exact ⟨he, by omega⟩
  rw [List.append_assoc, List.append_assoc, List.pairwise_append, List.pairwise_append, List.pairwise_append]
  refine ⟨p1, ⟨p2.sublist (selIdx_sublist _ _ _), ⟨p2.sublist (selIdx_sublist _ _ _), p3, ?_⟩, ?_⟩, ?_⟩
  · intro a ha b hb
    exact p4 a ((selIdx_sublist _ _ _).subset ha) b hb
  · intro a ha b hb
    rcases List.mem_append.1 hb with hb | hb
    · obtain ⟨i, hi1, hi2⟩ := mem_selIdx.1 ha
      obtain ⟨j, hj1, hj2⟩ := mem_selIdx.1 hb
      simp only [Bool.not_eq_true', decide_eq_false_iff_not] at hi2
      rw [decide_eq_true_eq] at hj2
      obtain ⟨hi3, hi4⟩ := hX i a hi1
      obtain ⟨hj3, hj4⟩ := hX j b hj1
      rcases Nat.lt_trichotomy (l + i) (l + j) with hlt | heq | hgt
      · exact Precedes.of_pairwise h1 hlt hi3 hj3
      · rw [heq] at hi2; exact absurd hj2 hi2
      · exact h2 _ _ a b (by omega) hi4 hi2 hj2 hgt hi3 hj3
    · exact p4 a ((selIdx_sublist _ _ _).subset ha) b hb
  · intro a ha b hb
    apply p5 a ha
    rcases List.mem_append.1 hb with hb | hb
    · exact List.mem_append_left _ ((selIdx_sublist _ _ _).subset hb)
    · rcases List.mem_append.1 hb with hb | hb
      · exact List.mem_append_left _ ((selIdx_sublist _ _ _).subset hb)
      · exact List.mem_append_right _ hb

theorem core_tuple {e f : Entry} (h : f.core = e.core) : f.seg = e.seg ∧ f.enter = e.enter ∧ f.exit = e.exit ∧ f.oldSeg = e.oldSeg := by
  simp only [Entry.core, Entry.mk.injEq] at h
  exact ⟨h.1, h.2.2.1, h.2.1, h.2.2.2.2.2⟩

theorem position_seg {line : List Entry} (hnd : (lineIds line).Nodup) {x i : Nat} (hx : ∃ e ∈ line, e.seg = x) (hp : position line x = some i) :
    ∃ e, line[i]? = some e ∧ e.seg = x := by
  obtain ⟨e, he, hex⟩ := hx
  obtain ⟨f, hf, hor⟩ := position_some hp
  rcases hor with hor | hor
  · exact ⟨f, hf, hor⟩
  · have : f = e := ids_unique hnd (List.mem_of_getElem? hf) he (x := x) (by simp [Entry.ids, hor]) (by simp [Entry.ids, hex])
    subst this
    exact ⟨f, hf, hex⟩

/-- C35: handling an intersection. Nothing is lost or duplicated on the line, and either the event is put off (the line does not change and
the event is in the queue again, strictly below this height) or afterwards the left segment comes after the right one. -/
theorem C35_reorders {s s' : State K} {left right : Nat} (hne : left ≠ right) (hnd : (s.line.flatMap fun e => e.seg :: e.oldSeg.toList).Nodup)
    (hl : ∃ e ∈ s.line, e.seg = left) (hr : ∃ e ∈ s.line, e.seg = right)
    (h : handleIntersection E s left right = some s') :
    s'.y = s.y ∧ (s'.line.map fun e => (e.seg, e.enter, e.exit, e.oldSeg)).Perm (s.line.map fun e => (e.seg, e.enter, e.exit, e.oldSeg)) ∧
    ((s'.line = s.line ∧ ∃ y', s.y < y' ∧ (⟨y', left, right⟩ : IEvent K) ∈ s'.ints) ∨ Precedes s'.line right left) := by
  obtain ⟨hh, _, hy, _⟩ := handleIntersection_spec h
  have hnd' : (lineIds s.line).Nodup := hnd
  refine ⟨hy, ?_, ?_⟩
  · cases hh with
    | delay y' _ _ h1 _ => rw [h1]
    | touch l r _ _ _ h1 _ => rw [h1]
    | swap l r sub _ _ _ hm _ =>
      have := hm.perm.map fun e : Entry => (e.seg, e.enter, e.exit, e.oldSeg)
      rw [List.map_map, List.map_map] at this
      exact this
  · cases hh with
    | delay y' h2 h3 h1 _ => exact .inl ⟨h1, y', h2, h3⟩
    | touch l r hle h1 h2 h3 _ =>
      obtain ⟨e, he, hes⟩ := position_seg hnd' hl h1
      obtain ⟨f, hf, hfs⟩ := position_seg hnd' hr h2
      right
      refine ⟨r, l, f, e, ?_, by rw [h3]; exact hf, by rw [h3]; exact he, hfs, hes⟩
      rcases Nat.lt_or_eq_of_le hle with h | h
      · exact h
      · subst h
        rw [he, Option.some.injEq] at hf
        subst hf
        exact absurd (hes.symm.trans hfs) hne
    | swap l r sub h1 h2 _ hm _ =>
      obtain ⟨e, he, hes⟩ := position_seg hnd' hl h1
      obtain ⟨f, hf, hfs⟩ := position_seg hnd' hr h2
      right
      by_contra hcon
      -- if the right segment did not precede the left one, the order of the pair would never hold, although both are on the line
      have hP : s'.line.Pairwise fun a b => ¬ (a.seg = right ∧ b.seg = left) := by
        rw [List.pairwise_iff_getElem]
        intro i j hi hj hij hab
        exact hcon ⟨i, j, _, _, hij, List.getElem?_eq_getElem hi, List.getElem?_eq_getElem hj, hab.1, hab.2⟩
      have hlr := hm.lt
      have hrl := hm.len
      rw [hm.line_eq, List.append_assoc, List.pairwise_append] at hP
      have hlen1 := markOld_length s.line l (r + 1)
      have hget : ∀ (k : Nat) (g : Entry), l ≤ k → k ≤ r → s.line[k]? = some g → ∃ g', (markOld s.line l (r + 1))[k]? = some g' ∧ g'.seg = g.seg ∧
          (((markOld s.line l (r + 1)).drop l).take (r + 1 - l))[k - l]? = some g' := by
        intro k g hk1 hk2 hg
        have hlt := (List.getElem?_eq_some_iff.1 hg).1
        obtain ⟨g', hg'⟩ : ∃ g', (markOld s.line l (r + 1))[k]? = some g' := ⟨_, List.getElem?_eq_getElem (by omega)⟩
        obtain ⟨g0, h5, h6⟩ := markOld_marks hg'
        rw [hg, Option.some.injEq] at h5
        subst h5
        refine ⟨g', hg', (core_tuple h6).1.symm, ?_⟩
        rw [List.getElem?_take_of_lt (by omega), List.getElem?_drop, show l + (k - l) = k by omega]
        exact hg'
      obtain ⟨e', _, he2, he3⟩ := hget l e (le_refl _) (by omega) he
      obtain ⟨f', _, hf2, hf3⟩ := hget r f (by omega) (le_refl _) hf
      refine hP.2.2 f' ?_ e' ?_ ⟨by rw [hf2, hfs], by rw [he2, hes]⟩
      · refine List.mem_append_right _ (mem_selIdx.2 ⟨r - l, hf3, ?_⟩)
        simp only [Bool.not_eq_true', decide_eq_false_iff_not]
        intro hc
        have := (hm.between _ hc).2
        omega
      · refine List.mem_append_left _ (mem_selIdx.2 ⟨l - l, he3, ?_⟩)
        simp

/-- C35: no new violation of the order. Call a pair of segments that stay on the line a violation if the one that comes first is
definitely to the right of the other one just below this height. If the comparison with the left segment is transitive and the left
segment is not definitely to the left of the right one (it crosses it), every violation after handling the intersection is a violation
between the same two segments before. -/
theorem C35_no_new_violation {s s' : State K} {left right : Nat} (hnd : (s.line.flatMap fun e => e.seg :: e.oldSeg.toList).Nodup)
    (hl : ∃ e ∈ s.line, e.seg = left) (hr : ∃ e ∈ s.line, e.seg = right)
    (htrans : ∀ b ∈ s.line, ∀ c ∈ s.line, DefLeft E s.y left b.seg → DefLeft E s.y b.seg c.seg → DefLeft E s.y left c.seg)
    (hcross : ¬ DefLeft E s.y left right) (h : handleIntersection E s left right = some s')
    {i j : Nat} {e f : Entry} (hij : i < j) (he : s'.line[i]? = some e) (hf : s'.line[j]? = some f)
    (hse : (e.exit && e.oldSeg.isNone) = false) (hsf : (f.exit && f.oldSeg.isNone) = false) (hv : DefLeft E s.y f.seg e.seg) :
    Precedes s.line e.seg f.seg := by
  obtain ⟨hh, _, hy, _⟩ := handleIntersection_spec h
  have hnd' : (lineIds s.line).Nodup := hnd
  cases hh with
  | delay y' _ _ h1 _ => rw [h1] at he hf; exact ⟨i, j, e, f, hij, he, hf, rfl, rfl⟩
  | touch l r _ _ _ h1 _ => rw [h1] at he hf; exact ⟨i, j, e, f, hij, he, hf, rfl, rfl⟩
  | swap l r sub h1 h2 hcm hm _ =>
    obtain ⟨el, hel, hels⟩ := position_seg hnd' hl h1
    obtain ⟨er, her, hers⟩ := position_seg hnd' hr h2
    refine Precedes.of_pairwise (hm.pairwise (R := fun e f => (e.exit && e.oldSeg.isNone) = false → (f.exit && f.oldSeg.isNone) = false →
      DefLeft E s.y f.seg e.seg → Precedes s.line e.seg f.seg) ?_ ?_) hij he hf hse hsf hv
    · rw [List.pairwise_iff_getElem]
      intro a b ha hb hab _ _ _
      obtain ⟨g, g1, g2⟩ := markOld_marks (List.getElem?_eq_getElem ha)
      obtain ⟨g', g1', g2'⟩ := markOld_marks (List.getElem?_eq_getElem hb)
      exact ⟨a, b, g, g', hab, g1, g1', (core_tuple g2).1, (core_tuple g2').1⟩
    · intro a b e f ha1 ha2 ha3 hb hba he hf hse hsf hv
      exfalso
      obtain ⟨g, g1, g2⟩ := markOld_marks he
      obtain ⟨g', g1', g2'⟩ := markOld_marks hf
      obtain ⟨q1, q2, q3, q4⟩ := core_tuple g2
      obtain ⟨q1', q2', q3', q4'⟩ := core_tuple g2'
      rw [← q1, ← q1'] at hv
      obtain ⟨sub', m1, m2, m3⟩ := collectMoves_spec _ hcm
      have hsub : sub' = sub := by simpa using m1.symm
      subst hsub
      have hbw := hm.between
      -- the kept one is not to the right of `left`
      have hkeep : ¬ DefLeft E s.y left g.seg := by
        by_cases har : a = r
        · subst har
          rw [her, Option.some.injEq] at g1
          subst g1
          rw [hers]; exact hcross
        · have haj : a ∈ List.range' (l + 1) (r - l - 1) := by
            rw [List.mem_range'_1]
            have : a ≠ l := fun hc => ha3 (by rw [hc]; simp)
            omega
          obtain ⟨g0, k1, k2, k3⟩ := m3 a haj
          rw [g1, Option.some.injEq] at k1
          subst k1
          rcases k3 (fun hc => ha3 (List.mem_cons_of_mem _ hc)) with k | ⟨p, k4, k5⟩
          · unfold Entry.willReallyExit at k
            rw [q3, q4] at k
            rw [k] at hse; simp at hse
          · rintro ⟨p', k6, k7⟩
            unfold CurveOrder.entryAt at k4
            rw [k4, Option.some.injEq] at k6
            subst k6
            exact k5 k7
      rcases List.mem_cons.1 hb with hbl | hb'
      · subst hbl
        rw [hel, Option.some.injEq] at g1'
        subst g1'
        rw [hels] at hv
        exact hkeep hv
      · have hbj := m2.subset hb'
        obtain ⟨g0, k1, k2, k3⟩ := m3 b hbj
        rw [g1', Option.some.injEq] at k1
        subst k1
        obtain ⟨_, ⟨p, k4, k5⟩, _⟩ := k2 hb'
        exact hkeep (htrans g' (List.mem_of_getElem? g1') g (List.mem_of_getElem? g1) ⟨p, k4, k5⟩ hv)

/-! ## C36: advancing -/

/-- C36: after a sweep line the segments that leave are removed and the others stay in the same order, with all their marks reset. This
never panics. -/
theorem C36_advance (hs : E.Sched) (hpp : E.PP) {fuel : Nat} {s : State K} (h : Reached E fuel s) (y : K) :
    ∃ s', advance s y = some s' ∧ s'.y = y ∧
      s'.line = (s.line.filter fun e => !(e.exit && e.oldSeg.isNone)).map (fun e => ⟨e.seg, false, false, false, none, none⟩) ∧
      s'.horiz = [] ∧ s'.snp = [] ∧ s'.chg = [] ∧ s'.ints = s.ints ∧ s'.nextEnter = s.nextEnter ∧ s'.nextExit = s.nextExit := by
  obtain ⟨hb, S0, M, L, hF⟩ := h.spec hs hpp
  have hlt : (s.snp.all fun i => decide (i < s.line.length)) = true := by
    rw [List.all_eq_true]
    intro i hi
    have h1 := hF.move.lt i hi
    have h2 := hF.chg.same.len
    rw [decide_eq_true_eq]
    omega
  obtain ⟨s', hs'⟩ : ∃ s', advance s y = some s' := by
    unfold advance
    rw [if_pos hlt]
    exact ⟨_, rfl⟩
  obtain ⟨a1, a2, a3, a4, a5, a6, a7, a8⟩ := advance_spec hb.done hs'
  refine ⟨s', hs', a1, ?_, a6, a7, a8, a5, a3, a4⟩
  rw [a2]
  exact (newSegs_filter s.line).symm

end Verif.Sweep
