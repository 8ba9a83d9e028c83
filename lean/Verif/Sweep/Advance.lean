import Verif.Sweep.Intervals
import Mathlib.Data.List.Dedup

/-! From one line to the next. -/

namespace Verif.Sweep
open Verif.Curve Verif.Range Verif.Topo
set_option linter.unusedSectionVars false

variable {K : Type} [LinearOrder K]

theorem resetRange_get (line : List Entry) (c : CI) (i : Nat) :
    (resetRange line c)[i]? = line[i]?.map fun e => if c.start ≤ i ∧ i < c.stop then e.reset else e := by
  rw [resetRange, List.getElem?_mapIdx]

theorem reset_reset (e : Entry) : e.reset.reset = e.reset := rfl

theorem reset_all (chg : List CI) : ∀ (line : List Entry), (∀ (i : Nat) (e : Entry), line[i]? = some e → ¬ Covered chg i → e.reset = e) →
    chg.foldl resetRange line = line.map Entry.reset := by
  induction chg with
  | nil =>
    intro line h
    rw [List.foldl_nil]
    apply List.ext_getElem?
    intro i
    rw [List.getElem?_map]
    cases hi : line[i]? with
    | none => rfl
    | some e => rw [Option.map_some, h i e hi (by rintro ⟨c, hc, _⟩; simp at hc)]
  | cons c chg ih =>
    intro line h
    rw [List.foldl_cons, ih]
    · apply List.ext_getElem?
      intro i
      rw [List.getElem?_map, List.getElem?_map, resetRange_get, Option.map_map]
      congr 1
      funext e
      simp only [Function.comp_apply]
      split_ifs
      · exact reset_reset e
      · rfl
    · intro i e he hc
      rw [resetRange_get, Option.map_eq_some_iff] at he
      obtain ⟨f, h1, h2⟩ := he
      by_cases hi : c.start ≤ i ∧ i < c.stop
      · rw [if_pos hi] at h2
        subst h2
        exact reset_reset f
      · rw [if_neg hi] at h2
        subst h2
        refine h i f h1 ?_
        rintro ⟨d, hd, h3⟩
        rcases List.mem_cons.1 hd with rfl | hd
        · exact hi h3
        · exact hc ⟨d, hd, h3⟩

theorem selIdx_filter {α β : Type} (f : α → β) (p : Nat → Bool) (q : α → Bool) (l : List α) (k : Nat)
    (h : ∀ (i : Nat) (a : α), l[i]? = some a → p (k + i) = q a) : selIdx p k (l.map f) = (l.filter q).map f := by
  induction l generalizing k with
  | nil => rfl
  | cons a l ih =>
    have h0 := h 0 a rfl
    rw [Nat.add_zero] at h0
    rw [List.map_cons, selIdx, h0, ih (k + 1) (by
      intro i b hb
      have := h (i + 1) b (by simpa using hb)
      rw [← this]
      congr 1
      omega)]
    rw [List.filter_cons]
    cases q a <;> simp

theorem reset_eq (e : Entry) : e.reset = Entry.new e.seg := rfl

theorem newSegs_filter (l : List Entry) : (l.filter fun e => !e.willReallyExit).map Entry.reset = (newSegs l).map Entry.new := by
  induction l with
  | nil => rfl
  | cons e l ih =>
    have : newSegs (e :: l) = (if e.willReallyExit then [] else [e.seg]) ++ newSegs l := by
      show List.filterMap _ _ = _
      rw [List.filterMap_cons]
      unfold Entry.newOf
      cases e.willReallyExit <;> rfl
    rw [this]
    cases h : e.willReallyExit
    · rw [List.filter_cons, h]
      simp only [Bool.not_false, if_true, List.map_cons, ih]
      rfl
    · rw [List.filter_cons, h]
      simpa using ih

/-- A line that is done: every entry with some state is in a changed interval. -/
structure Done (s : State K) : Prop where
  flags : ∀ (i : Nat) (e : Entry), s.line[i]? = some e → (e.enter = true ∨ e.exit = true ∨ e.inCh = true ∨ e.oldIdx ≠ none ∨ e.oldSeg ≠ none) →
    Covered s.chg i
  exits : ∀ (i : Nat) (e : Entry), s.line[i]? = some e → e.willReallyExit = true → i ∈ s.snp

theorem advance_spec {s s' : State K} {y : K} (hd : Done s) (h : advance s y = some s') :
    s'.y = y ∧ s'.line = (newSegs s.line).map Entry.new ∧ s'.nextEnter = s.nextEnter ∧ s'.nextExit = s.nextExit ∧ s'.ints = s.ints ∧
      s'.horiz = [] ∧ s'.snp = [] ∧ s'.chg = [] := by
  unfold advance at h
  split_ifs at h with hlt
  simp only [Option.some.injEq] at h
  subst h
  refine ⟨rfl, ?_, rfl, rfl, rfl, rfl, rfl, rfl⟩
  dsimp only
  have h1 : s.chg.foldl resetRange s.line = s.line.map Entry.reset := by
    apply reset_all
    intro i e he hc
    have : ∀ P : Prop, (P → Covered s.chg i) → ¬ P := fun P hP hp => hc (hP hp)
    have hf := hd.flags i e he
    have a1 : e.enter = false := by by_contra hh; exact hc (hf (.inl (by simpa using hh)))
    have a2 : e.exit = false := by by_contra hh; exact hc (hf (.inr (.inl (by simpa using hh))))
    have a3 : e.inCh = false := by by_contra hh; exact hc (hf (.inr (.inr (.inl (by simpa using hh)))))
    have a4 : e.oldIdx = none := by by_contra hh; exact hc (hf (.inr (.inr (.inr (.inl hh)))))
    have a5 : e.oldSeg = none := by by_contra hh; exact hc (hf (.inr (.inr (.inr (.inr hh)))))
    rcases e with ⟨a, b, c, d, f, g⟩
    simp only at a1 a2 a3 a4 a5
    subst a1 a2 a3 a4 a5
    rfl
  rw [h1]
  set js := (stableSort (fun a b => decide (a ≤ b)) (s.snp.filter (exitsHere s.line))).dedup with hjs
  have hmem : ∀ i, i ∈ js ↔ ∃ e, s.line[i]? = some e ∧ e.willReallyExit = true := by
    intro i
    rw [hjs, List.mem_dedup, (stableSort_perm _ _).mem_iff, List.mem_filter]
    constructor
    · rintro ⟨h2, h3⟩
      unfold exitsHere at h3
      split at h3
      · rename_i e he; exact ⟨e, he, h3⟩
      · simp at h3
    · rintro ⟨e, h2, h3⟩
      refine ⟨hd.exits i e h2 h3, ?_⟩
      unfold exitsHere
      rw [h2]; exact h3
  have hsort : js.Pairwise (· < ·) := by
    have h2 : js.Pairwise (· ≤ ·) := by
      rw [hjs]
      refine List.Pairwise.sublist (List.dedup_sublist _) ?_
      have := pairwise_stableSort (le := fun a b : Nat => decide (a ≤ b))
        (by intro a b c; simp only [decide_eq_true_eq]; exact le_trans)
        (by intro a b; simp only [Bool.or_eq_true, decide_eq_true_eq]; exact le_total _ _)
        (s.snp.filter (exitsHere s.line))
      exact this.imp fun hab => by simpa using hab
    have h3 : js.Pairwise (· ≠ ·) := by rw [hjs]; exact List.nodup_dedup _
    exact (h2.and h3).imp fun hab => lt_of_le_of_ne hab.1 hab.2
  rw [erase_sel _ (List.pairwise_reverse.2 hsort)]
  rw [selIdx_filter Entry.reset _ (fun e => !e.willReallyExit), newSegs_filter]
  intro i e he
  rw [Nat.zero_add]
  cases hw : e.willReallyExit
  · simp only [Bool.not_false, decide_eq_true_eq, List.mem_reverse, hmem]
    rintro ⟨f, h2, h3⟩
    rw [he, Option.some.injEq] at h2
    rw [← h2, hw] at h3
    simp at h3
  · simp only [Bool.not_true, decide_eq_false_iff_not, not_not, List.mem_reverse, hmem]
    exact ⟨e, he, hw⟩

/-- The entries of the line without their marks are those of the line before the intersections. -/
theorem MoveInv.core_perm {M L : List Entry} {snp : List Nat} (h : MoveInv M L snp) : (L.map Entry.core).Perm (M.map Entry.core) := by
  have hc : CutAt snp L.length := .inl fun hi => absurd (h.lt _ hi) (lt_irrefl _)
  have hp := h.perm _ hc
  rw [List.take_length, h.len, List.take_length] at hp
  have key : ∀ (k : Nat) (l : List Entry), (places k l).map (fun p => p.2.core) = l.map Entry.core := by
    intro k l
    induction l generalizing k with
    | nil => rfl
    | cons e l ih => rw [places, List.map_cons, ih]; rfl
  have := hp.map fun p => p.2.core
  rwa [key, key] at this

theorem Same.core_map {L L' : List Entry} (h : Same L L') : L'.map Entry.core = L.map Entry.core := by
  apply List.ext_getElem?
  intro i
  rw [List.getElem?_map, List.getElem?_map]
  cases h1 : L[i]? with
  | none =>
    have : L'[i]? = none := by rw [List.getElem?_eq_none_iff] at h1 ⊢; rw [h.len]; exact h1
    rw [this]
  | some e =>
    obtain ⟨f, hf⟩ := h.get' h1
    rw [hf, Option.map_some, Option.map_some, (h.place i e f h1 hf).2.1]

theorem newSegs_core (l : List Entry) : newSegs (l.map Entry.core) = newSegs l := by
  unfold newSegs
  rw [List.filterMap_map]
  rfl

theorem oldSegs_core (l : List Entry) : oldSegs (l.map Entry.core) = oldSegs l := by
  unfold oldSegs
  rw [List.filterMap_map]
  rfl

theorem lineIds_core (l : List Entry) : lineIds (l.map Entry.core) = lineIds l := by
  unfold lineIds
  rw [List.flatMap_map]
  rfl

end Verif.Sweep
