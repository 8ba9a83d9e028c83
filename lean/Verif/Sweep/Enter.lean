import Verif.Sweep.Scans

/-! Segments entering the sweep line. -/

namespace Verif.Sweep
open Verif.Curve Verif.Range Verif.Topo
set_option linter.unusedSectionVars false

variable {K : Type} [LinearOrder K]

/-! ## Reading the two orders off the line -/

/-- sweep_line.rs:1325-1345 (`old_segment_range`): the segment that was at this place above the line, if there was one. -/
def Entry.oldOf (e : Entry) : Option Nat := if e.enter then e.oldSeg else some e.seg

/-- sweep_line.rs:1349-1360 (`segment_range`): the segment that is at this place below the line, if there is one. -/
def Entry.newOf (e : Entry) : Option Nat := if e.willReallyExit then none else some e.seg

/-- All the segments of an entry. -/
def Entry.ids (e : Entry) : List Nat := e.seg :: e.oldSeg.toList

def lineIds (l : List Entry) : List Nat := l.flatMap Entry.ids

/-- The segments that were on the line above. -/
def oldSegs (l : List Entry) : List Nat := l.filterMap Entry.oldOf
/-- The segments that are on the line below. -/
def newSegs (l : List Entry) : List Nat := l.filterMap Entry.newOf

/-- An entry without any state. -/
def Entry.Clean (e : Entry) : Prop := e = Entry.new e.seg

/-! ## Lists -/

theorem split_at {α : Type} {l : List α} {i : Nat} {a : α} (h : l[i]? = some a) :
    ∃ l1 l2, l = l1 ++ a :: l2 ∧ l1.length = i ∧ (∀ b, l.set i b = l1 ++ b :: l2) ∧ l.eraseIdx i = l1 ++ l2 := by
  obtain ⟨hi, rfl⟩ := List.getElem?_eq_some_iff.1 h
  refine ⟨l.take i, l.drop (i + 1), ?_, ?_, ?_, ?_⟩
  · simp
  · simp; omega
  · intro b
    rw [List.set_eq_take_append_cons_drop, if_pos hi]
  · rw [List.eraseIdx_eq_take_drop_succ]

theorem split_insert {α : Type} (l : List α) (i : Nat) (a : α) (h : i ≤ l.length) :
    ∃ l1 l2, l = l1 ++ l2 ∧ l1.length = i ∧ l.insertIdx i a = l1 ++ a :: l2 := by
  refine ⟨l.take i, l.drop i, by simp, by simp; omega, ?_⟩
  induction l generalizing i with
  | nil =>
    have : i = 0 := by simpa using h
    subst this; rfl
  | cons b l ih =>
    cases i with
    | zero => rfl
    | succ i => simp only [List.insertIdx_succ_cons, List.take_succ_cons, List.drop_succ_cons, List.cons_append]; rw [ih i (by simpa using h)]

/-! ## The places that need a position -/

theorem mem_insertPos (pos : Nat) (snp : List Nat) (i : Nat) : i ∈ insertPos pos snp ↔ i = pos ∨ i ∈ snp := by
  unfold insertPos
  have h : snp = (snp.reverse.dropWhile fun p => !decide (p < pos)).reverse ++ (snp.reverse.takeWhile fun p => !decide (p < pos)).reverse := by
    rw [← List.reverse_append, List.takeWhile_append_dropWhile, List.reverse_reverse]
  conv_rhs => rw [h]
  simp only [List.mem_append, List.mem_cons]
  tauto

theorem insertPos_sorted (pos : Nat) (snp : List Nat) (h : snp.Pairwise (· ≤ ·)) : (insertPos pos snp).Pairwise (· ≤ ·) := by
  unfold insertPos
  have hs : snp = (snp.reverse.dropWhile fun p => !decide (p < pos)).reverse ++ (snp.reverse.takeWhile fun p => !decide (p < pos)).reverse := by
    rw [← List.reverse_append, List.takeWhile_append_dropWhile, List.reverse_reverse]
  have hr : ∀ p ∈ (snp.reverse.takeWhile fun p => !decide (p < pos)).reverse, pos ≤ p := by
    intro p hp
    have := List.mem_takeWhile_imp (List.mem_reverse.1 hp)
    simpa using this
  have hl : ∀ p ∈ (snp.reverse.dropWhile fun p => !decide (p < pos)).reverse, p < pos := by
    intro p hp
    rw [List.mem_reverse] at hp
    cases hd : (snp.reverse.dropWhile fun p => !decide (p < pos)) with
    | nil => rw [hd] at hp; simp at hp
    | cons b bs =>
      have hb : b < pos := by
        have := List.head?_dropWhile_not (fun p => !decide (p < pos)) snp.reverse
        rw [hd] at this
        simpa using this
      rw [hd] at hp
      rcases List.mem_cons.1 hp with rfl | hp
      · exact hb
      · have hrev : snp.reverse.Pairwise (· ≥ ·) := List.pairwise_reverse.2 h
        have hsub := (List.dropWhile_suffix (l := snp.reverse) fun p => !decide (p < pos)).sublist
        rw [hd] at hsub
        have := (List.pairwise_cons.1 (hrev.sublist hsub)).1 p hp
        omega
  generalize (snp.reverse.dropWhile fun p => !decide (p < pos)).reverse = A at *
  generalize (snp.reverse.takeWhile fun p => !decide (p < pos)).reverse = B at *
  subst hs
  rw [List.pairwise_append] at h ⊢
  refine ⟨h.1, List.pairwise_cons.2 ⟨hr, h.2.1⟩, ?_⟩
  intro a ha b hb
  rcases List.mem_cons.1 hb with rfl | hb
  · exact (hl a ha).le
  · exact h.2.2 a ha b hb

theorem shiftPos_eq (pos : Nat) (l : List Nat) (h : l.Pairwise (· ≥ ·)) :
    shiftPos pos l = l.map fun p => if pos ≤ p then p + 1 else p := by
  induction l with
  | nil => rfl
  | cons p ps ih =>
    rw [List.pairwise_cons] at h
    simp only [shiftPos, List.map_cons]
    by_cases hp : pos ≤ p
    · rw [if_pos hp, if_pos hp, ih h.2]
    · rw [if_neg hp, if_neg hp]
      congr 1
      symm
      conv_rhs => rw [← List.map_id ps]
      refine List.map_congr_left ?_
      intro x hx
      have := h.1 x hx
      rw [if_neg (by omega), id]

theorem mem_addSeg (pos : Nat) (snp : List Nat) (h : snp.Pairwise (· ≤ ·)) (i : Nat) :
    i ∈ addSeg pos true snp ↔ i = pos ∨ (i < pos ∧ i ∈ snp) ∨ (pos < i ∧ i - 1 ∈ snp) := by
  unfold addSeg
  rw [mem_insertPos, if_pos rfl, List.mem_reverse, shiftPos_eq _ _ (List.pairwise_reverse.2 h), List.mem_map]
  simp only [List.mem_reverse]
  constructor
  · rintro (h1 | ⟨p, h1, h2⟩)
    · exact .inl h1
    · split_ifs at h2 with h3
      · exact .inr (.inr ⟨by omega, by rw [← h2]; simpa using h1⟩)
      · subst h2; exact .inr (.inl ⟨by omega, h1⟩)
  · rintro (h1 | ⟨h1, h2⟩ | ⟨h1, h2⟩)
    · exact .inl h1
    · exact .inr ⟨i, h2, by rw [if_neg (by omega)]⟩
    · exact .inr ⟨i - 1, h2, by rw [if_pos (by omega)]; omega⟩

theorem addSeg_sorted (pos : Nat) (ins : Bool) (snp : List Nat) (h : snp.Pairwise (· ≤ ·)) : (addSeg pos ins snp).Pairwise (· ≤ ·) := by
  unfold addSeg
  apply insertPos_sorted
  split_ifs
  · rw [shiftPos_eq _ _ (List.pairwise_reverse.2 h)]
    rw [← List.map_reverse, List.reverse_reverse]
    rw [List.pairwise_map]
    refine h.imp ?_
    intro a b hab
    split_ifs <;> omega
  · exact h

/-! ## The invariant -/

/-- The segments and their schedule. -/
structure Env.Sched (E : Env K) : Prop where
  enter_y : ∀ p ∈ E.entrances, p.1 = E.startY p.2
  enter_sorted : E.entrances.Pairwise fun a b => a.1 ≤ b.1
  enter_nodup : (E.entrances.map Prod.snd).Nodup
  exit_y : ∀ p ∈ E.exits, p.1 = E.endY p.2
  exit_sorted : E.exits.Pairwise fun a b => a.1 ≤ b.1
  exit_nodup : (E.exits.map Prod.snd).Nodup
  exit_mem : ∀ s, s ∈ E.exits.map Prod.snd ↔ s ∈ E.entrances.map Prod.snd ∧ E.isHorizontal s = false
  down : ∀ s ∈ E.entrances.map Prod.snd, E.startY s ≤ E.endY s

/-- What an entry may look like when the entering segments have been inserted. -/
inductive EnterKind (E : Env K) (y : K) (e : Entry) : Prop
  | stays : e.enter = false → e.exit = false → e.oldSeg = none → EnterKind E y e
  | enters : e.enter = true → e.exit = false → e.oldSeg = none → E.startY e.seg = y → EnterKind E y e
  | continues (o : Nat) : e.enter = true → e.exit = true → e.oldSeg = some o → E.startY e.seg = y →
      E.neighborAbove e.seg = some o → E.startY o < y → E.endX o = E.startX e.seg → E.endY o = y → EnterKind E y e

/-- The line while the segments in `done` have entered; `S0` are the segments that were there before. -/
structure EnterInv (E : Env K) (y : K) (S0 done : List Nat) (s : State K) : Prop where
  y_eq : s.y = y
  old : oldSegs s.line = S0
  blank : ∀ e ∈ s.line, e.inCh = false ∧ e.oldIdx = none
  kinds : ∀ e ∈ s.line, EnterKind E y e
  ids : (lineIds s.line).Perm (S0 ++ done.filter fun x => !E.isHorizontal x)
  horiz : s.horiz = done.filter E.isHorizontal
  sorted : s.snp.Pairwise (· ≤ ·)
  snp : ∀ i, i ∈ s.snp ↔ ∃ e, s.line[i]? = some e ∧ e.enter = true

/-- The queue holds only events at or below the line. -/
def QInv (y : K) (q : List (IEvent K)) : Prop := QSorted q ∧ ∀ e ∈ q, y ≤ e.y

theorem Grows.qinv {E : Env K} {y : K} {line : List Entry} {q q' : List (IEvent K)} (h : Grows E y line q q') (hq : QInv y q) :
    QInv y q' := by
  refine ⟨h.sorted hq.1, fun e he => ?_⟩
  rcases h.found e he with h1 | ⟨a, _, b, _, _, _, h1⟩
  · exact hq.2 e h1
  · exact touchEvent_le h1

theorem lineIds_append (a b : List Entry) : lineIds (a ++ b) = lineIds a ++ lineIds b := by simp [lineIds]
theorem lineIds_cons (e : Entry) (b : List Entry) : lineIds (e :: b) = e.ids ++ lineIds b := by simp [lineIds]
theorem oldSegs_append (a b : List Entry) : oldSegs (a ++ b) = oldSegs a ++ oldSegs b := by simp [oldSegs]
theorem newSegs_append (a b : List Entry) : newSegs (a ++ b) = newSegs a ++ newSegs b := by simp [newSegs]

/-- The segment does not have an entry of its own yet. -/
theorem handleEnter_inv {E : Env K} {y : K} {S0 done : List Nat} {s s' : State K} {seg : Nat}
    (h : EnterInv E y S0 done s) (hy : E.startY seg = y) (he : handleEnter E s seg = some s') :
    EnterInv E y S0 (done ++ [seg]) s' ∧ (QInv y s.ints → QInv y s'.ints) ∧ s'.nextEnter = s.nextEnter ∧ s'.nextExit = s.nextExit ∧
      s'.chg = s.chg := by
  unfold handleEnter at he
  by_cases hh : E.isHorizontal seg = true
  · rw [if_pos hh] at he
    simp only [Option.some.injEq] at he
    subst he
    refine ⟨⟨h.y_eq, h.old, h.blank, h.kinds, ?_, ?_, h.sorted, h.snp⟩, fun q => q, rfl, rfl, rfl⟩
    · simpa [hh] using h.ids
    · simp [h.horiz, hh]
  · rw [if_neg hh] at he
    split at he
    · simp at he
    rename_i pos hpos
    split at he
    · simp at he
    · -- continuation
      rename_i p hp
      unfold continuationPos at hp
      split at hp
      · simp at hp
      rename_i c hc
      split_ifs at hp with h1 h2 h3 h4
      all_goals
        simp only [Option.some.injEq] at hp
      all_goals (try exact absurd hp (by simp))
      all_goals
        subst hp
        unfold handleContinuation at he
        split at he
        · simp at he
        rename_i e hpe
        dsimp only at he
        rw [Option.map_eq_some_iff] at he
        obtain ⟨q', hq', rfl⟩ := he
        have hseg : e.seg = c := by
          first
          | (rw [hpe] at h3; simpa using h3)
          | (have := h4.2; rw [hpe] at this; simpa using this)
        obtain ⟨l1, l2, e1, e2, e3, -⟩ := split_at hpe
        have hmem : e ∈ s.line := List.mem_of_getElem? hpe
        have hstay : e.enter = false ∧ e.exit = false ∧ e.oldSeg = none := by
          rcases h.kinds e hmem with ⟨a, b, c⟩ | ⟨a, b, c, d⟩ | ⟨o, a, b, c, d⟩
          · exact ⟨a, b, c⟩
          · exact absurd h1 (by rw [h.y_eq, ← hseg, d]; exact lt_irrefl _)
          · exact absurd h1 (by rw [h.y_eq, ← hseg, d]; exact lt_irrefl _)
        refine ⟨⟨h.y_eq, ?_, ?_, ?_, ?_, ?_, addSeg_sorted _ _ _ h.sorted, ?_⟩, ?_, rfl, rfl, rfl⟩
        · dsimp only
          rw [e3, ← h.old, e1]
          simp [oldSegs, Entry.oldOf, hstay.1]
        · dsimp only
          rw [e3]
          intro f hf
          rw [List.mem_append, List.mem_cons] at hf
          have hb := h.blank
          rw [e1] at hb
          rcases hf with hf | rfl | hf
          · exact hb f (by simp [hf])
          · exact hb e (by simp)
          · exact hb f (by simp [hf])
        · dsimp only
          rw [e3]
          intro f hf
          rw [List.mem_append, List.mem_cons] at hf
          have hb := h.kinds
          rw [e1] at hb
          rcases hf with hf | rfl | hf
          · exact hb f (by simp [hf])
          · refine EnterKind.continues c rfl rfl (by simp [hseg]) hy hc ?_ h2.1 (h2.2.trans hy)
            rw [h.y_eq] at h1; exact h1
          · exact hb f (by simp [hf])
        · dsimp only
          rw [e3]
          have hi := h.ids
          rw [e1] at hi
          rw [lineIds_append, lineIds_cons] at hi ⊢
          have : e.ids = [c] := by simp [Entry.ids, hstay.2.2, hseg]
          rw [this] at hi
          simp only [Entry.ids, hseg, List.filter_append, hh, Option.toList_some]
          simp only [List.filter_cons, hh, Bool.not_false, if_true, List.filter_nil]
          rw [← List.append_assoc S0]
          refine List.Perm.trans ?_ (hi.append_right [seg])
          simp only [List.append_assoc, List.cons_append, List.nil_append]
          refine List.Perm.append_left _ ?_
          refine (List.perm_append_comm (l₁ := [seg]) (l₂ := c :: lineIds l2)).trans ?_
          simp
        · simp [h.horiz, hh]
        · intro i
          show i ∈ addSeg _ false s.snp ↔ _
          unfold addSeg
          rw [if_neg (by simp), mem_insertPos, h.snp i]
          dsimp only
          rw [List.getElem?_set]
          have hlt := (List.getElem?_eq_some_iff.1 hpe).1
          constructor
          · rintro (rfl | ⟨f, h5, h6⟩)
            · rw [if_pos rfl, if_pos hlt]; exact ⟨_, rfl, rfl⟩
            · split_ifs with h7
              · exact ⟨_, rfl, rfl⟩
              · exact ⟨f, h5, h6⟩
          · rintro ⟨f, h5, h6⟩
            split_ifs at h5 with h7
            · exact .inl h7.symm
            · exact .inr ⟨f, h5, h6⟩
        · intro q
          have := scanBoth_grows hq'
          rw [h.y_eq] at this
          exact this.qinv q
    · -- a new entry
      rename_i hp
      rw [Option.map_eq_some_iff] at he
      obtain ⟨r, hr, rfl⟩ := he
      obtain ⟨g1, g2, g3⟩ := insertScan_spec hr
      obtain ⟨l1, l2, e1, e2, e3⟩ := split_insert s.line pos { Entry.new seg with enter := true, exit := false } g1
      refine ⟨⟨h.y_eq, ?_, ?_, ?_, ?_, ?_, addSeg_sorted _ _ _ h.sorted, ?_⟩, ?_, rfl, rfl, rfl⟩
      · dsimp only
        rw [g2, e3, ← h.old, e1]
        simp [oldSegs, Entry.oldOf, Entry.new]
      · dsimp only
        rw [g2, e3]
        intro f hf
        rw [List.mem_append, List.mem_cons] at hf
        have hb := h.blank
        rw [e1] at hb
        rcases hf with hf | rfl | hf
        · exact hb f (by simp [hf])
        · exact ⟨rfl, rfl⟩
        · exact hb f (by simp [hf])
      · dsimp only
        rw [g2, e3]
        intro f hf
        rw [List.mem_append, List.mem_cons] at hf
        have hb := h.kinds
        rw [e1] at hb
        rcases hf with hf | rfl | hf
        · exact hb f (by simp [hf])
        · exact EnterKind.enters rfl rfl rfl hy
        · exact hb f (by simp [hf])
      · dsimp only
        rw [g2, e3]
        have hi := h.ids
        rw [e1] at hi
        rw [lineIds_append, lineIds_cons]
        rw [lineIds_append] at hi
        have hseg : ({ Entry.new seg with enter := true, exit := false } : Entry).ids = [seg] := rfl
        rw [hseg]
        simp only [List.filter_append, List.filter_cons, hh, Bool.not_false, if_true, List.filter_nil]
        rw [← List.append_assoc S0]
        refine List.Perm.trans ?_ (hi.append_right [seg])
        rw [List.append_assoc]
        refine List.Perm.append_left _ ?_
        exact List.perm_append_comm
      · simp [h.horiz, hh]
      · intro i
        show i ∈ addSeg _ true s.snp ↔ _
        rw [mem_addSeg _ _ h.sorted, h.snp, h.snp]
        dsimp only
        rw [g2, List.getElem?_insertIdx]
        constructor
        · rintro (rfl | ⟨h5, f, h6, h7⟩ | ⟨h5, f, h6, h7⟩)
          · rw [if_neg (by omega), if_pos rfl, if_pos g1]; exact ⟨_, rfl, rfl⟩
          · rw [if_pos h5]; exact ⟨f, h6, h7⟩
          · rw [if_neg (by omega), if_neg (by omega)]; exact ⟨f, h6, h7⟩
        · rintro ⟨f, h5, h6⟩
          split_ifs at h5 with h7 h8 h9
          · exact .inr (.inl ⟨h7, f, h5, h6⟩)
          · exact .inl h8
          · exact .inr (.inr ⟨by omega, f, h5, h6⟩)
      · intro q
        rw [h.y_eq] at g3
        exact g3.qinv q

end Verif.Sweep
