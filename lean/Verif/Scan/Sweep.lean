import Verif.Scan.Abstract
import Verif.Scan.Model
import Verif.Merge.Props

/-! Executions of the sweep line by line, and the records of neighbours that they leave behind. -/

namespace Verif.Scan
open Verif.Topo Verif.Range Verif.Merge
set_option linter.unusedSectionVars false

variable {K : Type} [LinearOrder K] {W : Type} [AddCommGroup W]

/-- The state between two ranges: the events so far, the sweep line, the topology, the current height and the number of places of
the sweep line that lie to the left of the end of the last range processed at this height. -/
structure SState (K W : Type) where
  hist : List (K × OutputEvent K)
  line : List Nat
  t : Topo K W
  yl : WithBot K
  done : Nat

/-- topology.rs:511-529, sweep_line.rs:1441-1454: one range is processed. On each sweep line the ranges are visited from left to
right, and two of them are never adjacent because adjacent ones have been merged (`merge_adjacent`, sweep_line.rs:1606-1623); in
particular the neighbour to the east of a range (`line_entry(end)`) is never in a changed interval. -/
inductive Step (single : Nat → Bool → W) (orient : Nat → Bool) : SState K W → SState K W → Prop
  | range (hist : List (K × OutputEvent K)) (A B : List Nat) (y : K) (E Eo En : List (OutputEvent K)) (t t' : Topo K W)
      (yl : WithBot K) (done : Nat) :
      RangeHyp single orient hist A B y E Eo En B.head? →
      (yl < y ∨ yl = y ∧ done < A.length) →
      processRange single orient y E A.getLast? B.head? false t = some t' →
      Step single orient ⟨hist, A ++ Eo.map OutputEvent.segIdx ++ B, t, yl, done⟩
        ⟨hist ++ E.map fun e => (y, e), A ++ En.map OutputEvent.segIdx ++ B, t', y, A.length + En.length⟩

/-- Any number of ranges. -/
inductive Steps (single : Nat → Bool → W) (orient : Nat → Bool) : SState K W → SState K W → Prop
  | refl (s : SState K W) : Steps single orient s s
  | tail (s u v : SState K W) : Steps single orient s u → Step single orient u v → Steps single orient s v

/-- The beginning of the sweep. -/
def SState.init : SState K W := ⟨[], [], Topo.init, ⊥, 0⟩

theorem Steps.run {single : Nat → Bool → W} {orient : Nat → Bool} {s : SState K W} (h : Steps single orient SState.init s) :
    Run single orient s.hist s.line s.t := by
  generalize h0 : (SState.init : SState K W) = s0 at h
  induction h with
  | refl => subst h0; exact Run.init
  | tail u v _ hst ih =>
    have hr := ih
    cases hst with
    | range hist A B y E Eo En t t' yl done H hy hp =>
      exact Run.range hist A B y E Eo En B.head? false t t' hr H hp

/-! ## Records -/

def StartsAt (t : Topo K W) (i : Nat) (y : K) : Prop := ∃ p x, t.pointIdx ⟨i, true⟩ = some p ∧ t.points[p]? = some (x, y)
def EndsAt (t : Topo K W) (i : Nat) (y : K) : Prop := ∃ p x, t.pointIdx ⟨i, false⟩ = some p ∧ t.points[p]? = some (x, y)

/-- The records of west neighbours of `o`. -/
def InW (t : Topo K W) (o : Nat) (y : K) (v : Option Nat) : Prop :=
  (o < t.n ∧ ¬ Horiz t o ∧ StartsAt t o y ∧ v ≠ none ∧ t.scanWest o = v) ∨
  (∃ i < t.n, t.scanEast i = some o ∧ StartsAt t i y ∧ v = some i) ∨ (y, v, some o) ∈ t.scanAfter

/-- The records of east neighbours of `o`. -/
def InE (t : Topo K W) (o : Nat) (y : K) (v : Option Nat) : Prop :=
  (o < t.n ∧ StartsAt t o y ∧ v ≠ none ∧ t.scanEast o = v) ∨
  (∃ i < t.n, ¬ Horiz t i ∧ t.scanWest i = some o ∧ StartsAt t i y ∧ v = some i) ∨ (y, some o, v) ∈ t.scanAfter

def Sv (t : Topo K W) (o : Nat) (y : K) : Prop := o < t.n ∧ ¬ Horiz t o ∧ StartsAt t o y
def Cv (t : Topo K W) (o : Nat) (y : K) : Prop := o < t.n ∧ ¬ Horiz t o ∧ EndsAt t o y

/-- The output segment that is open for the input segment `s`. -/
def out (t : Topo K W) (s : Nat) : Nat := (t.openSegs s).headD 0

theorem prev_append (X Y : List Nat) : prev (X ++ Y) X.length = X.getLast? := by
  rcases List.eq_nil_or_concat X with rfl | ⟨X', x, rfl⟩
  · rfl
  · rw [List.concat_eq_append]; simp [prev]

theorem gapW (LA N LB : List Nat) (o : Nat) (v : Option Nat) :
    (∃ i, LA.length ≤ i ∧ i ≤ LA.length + N.length ∧ (LA ++ N ++ LB)[i]? = some o ∧ v = prev (LA ++ N ++ LB) i ∧
      (v ≠ none ∨ i = LA.length + N.length)) ↔
    (∃ l1 l2, N = l1 ++ o :: l2 ∧ v = l1.getLast?.or LA.getLast? ∧ v ≠ none) ∨
    (LB.head? = some o ∧ v = N.getLast?.or LA.getLast?) := by
  constructor
  · rintro ⟨i, h1, h2, h3, h4, h5⟩
    by_cases hi : i < LA.length + N.length
    · left
      obtain ⟨j, rfl⟩ := Nat.exists_eq_add_of_le h1
      have hj : j < N.length := by omega
      rw [List.getElem?_append_left (by simp only [List.length_append]; omega), List.getElem?_append_right h1,
        Nat.add_sub_cancel_left, List.getElem?_eq_getElem hj] at h3
      have ho : N[j] = o := by simpa using h3
      have hN : N = N.take j ++ o :: N.drop (j + 1) := by
        rw [← ho, List.getElem_cons_drop, List.take_append_drop]
      refine ⟨N.take j, N.drop (j + 1), hN, ?_, ?_⟩
      · have hl : (LA ++ N.take j).length = LA.length + j := by simp; omega
        have hL : LA ++ N ++ LB = (LA ++ N.take j) ++ (o :: N.drop (j + 1) ++ LB) := by
          conv_lhs => rw [hN]
          simp
        rw [h4, hL, ← hl, prev_append, List.getLast?_append]
      · rcases h5 with h5 | h5
        · exact h5
        · omega
    · right
      have hi : i = LA.length + N.length := by omega
      subst hi
      constructor
      · rw [List.getElem?_append_right (by simp)] at h3
        rw [List.head?_eq_getElem?]; simpa using h3
      · have hl : (LA ++ N).length = LA.length + N.length := by simp
        rw [h4, ← hl, prev_append, List.getLast?_append]
  · rintro (⟨l1, l2, rfl, h2, h3⟩ | ⟨h1, h2⟩)
    · refine ⟨LA.length + l1.length, by omega, by simp, ?_, ?_, .inl h3⟩
      · rw [List.getElem?_append_left (by simp), List.getElem?_append_right (by simp)]
        simp
      · have hl : (LA ++ l1).length = LA.length + l1.length := by simp
        have hL : LA ++ (l1 ++ o :: l2) ++ LB = (LA ++ l1) ++ (o :: l2 ++ LB) := by simp
        rw [hL, ← hl, prev_append, List.getLast?_append, h2]
    · refine ⟨LA.length + N.length, by omega, le_refl _, ?_, ?_, .inr rfl⟩
      · rw [List.getElem?_append_right (by simp)]
        rw [List.head?_eq_getElem?] at h1; simpa using h1
      · have hl : (LA ++ N).length = LA.length + N.length := by simp
        rw [← hl, prev_append, List.getLast?_append, h2]

theorem gapE (LA N LB : List Nat) (o : Nat) (v : Option Nat) :
    (∃ i, LA.length ≤ i + 1 ∧ i + 1 ≤ LA.length + N.length ∧ (LA ++ N ++ LB)[i]? = some o ∧ v = (LA ++ N ++ LB)[i + 1]? ∧
      (v ≠ none ∨ i + 1 = LA.length)) ↔
    (∃ l1 l2, N = l1 ++ o :: l2 ∧ v = l2.head?.or LB.head? ∧ v ≠ none) ∨
    (LA.getLast? = some o ∧ v = N.head?.or LB.head?) := by
  have hd : ∀ X Y : List Nat, (X ++ Y).head? = X.head?.or Y.head? := by
    intro X Y; cases X <;> simp
  constructor
  · rintro ⟨i, h1, h2, h3, h4, h5⟩
    by_cases hi : i + 1 = LA.length
    · right
      constructor
      · rw [List.append_assoc, List.getElem?_append_left (by omega)] at h3
        rw [List.getLast?_eq_getElem?, ← hi]; simpa using h3
      · rw [h4, List.append_assoc, List.getElem?_append_right (by omega), hi, Nat.sub_self, ← List.head?_eq_getElem?, hd]
    · left
      obtain ⟨j, rfl⟩ := Nat.exists_eq_add_of_le (show LA.length ≤ i by omega)
      have hj : j < N.length := by omega
      have h3' := h3
      rw [List.getElem?_append_left (by simp only [List.length_append]; omega), List.getElem?_append_right (by omega),
        Nat.add_sub_cancel_left, List.getElem?_eq_getElem hj] at h3
      have ho : N[j] = o := by simpa using h3
      have hN : N = N.take j ++ o :: N.drop (j + 1) := by
        rw [← ho, List.getElem_cons_drop, List.take_append_drop]
      refine ⟨N.take j, N.drop (j + 1), hN, ?_, ?_⟩
      · have hl : (LA ++ N.take j ++ [o]).length = LA.length + j + 1 := by simp; omega
        have hL : LA ++ N ++ LB = (LA ++ N.take j ++ [o]) ++ (N.drop (j + 1) ++ LB) := by
          conv_lhs => rw [hN]
          simp
        rw [h4, hL, List.getElem?_append_right (by omega), hl, Nat.sub_self, ← List.head?_eq_getElem?, hd]
      · rcases h5 with h5 | h5
        · exact h5
        · omega
  · rintro (⟨l1, l2, rfl, h2, h3⟩ | ⟨h1, h2⟩)
    · refine ⟨LA.length + l1.length, by omega, by simp; omega, ?_, ?_, .inl h3⟩
      · rw [List.getElem?_append_left (by simp), List.getElem?_append_right (by simp)]
        simp
      · have hl : (LA ++ l1 ++ [o]).length = LA.length + l1.length + 1 := by simp; omega
        have hL : LA ++ (l1 ++ o :: l2) ++ LB = (LA ++ l1 ++ [o]) ++ (l2 ++ LB) := by simp
        rw [hL, List.getElem?_append_right (by omega), hl, Nat.sub_self, ← List.head?_eq_getElem?, hd, h2]
    · obtain ⟨LA', rfl⟩ := List.getLast?_eq_some_iff.1 h1
      refine ⟨LA'.length, by simp, by simp, by simp, ?_, .inr (by simp)⟩
      rw [List.append_assoc (LA' ++ [o]), List.getElem?_append_right (by simp)]
      have : LA'.length + 1 - (LA' ++ [o]).length = 0 := by simp
      rw [this, ← List.head?_eq_getElem?, hd, h2]

/-! ## One range -/

section
variable {single : Nat → Bool → W} {orient : Nat → Bool} {hist : List (K × OutputEvent K)} {A B : List Nat} {y : K}
  {E Eo En : List (OutputEvent K)} {t t' : Topo K W}

/-- The result of processing one range. -/
structure Res (y : K) (A B : List Nat) (Eo En : List (OutputEvent K)) (t t' : Topo K W) (nOf : Nat → Nat) : Prop where
  n_le : t.n ≤ t'.n
  pidx_old : ∀ h p, t.pointIdx h = some p → t'.pointIdx h = some p
  points_old : ∃ ps, t'.points = t.points ++ ps ∧ ∀ q ∈ ps, q.2 = y
  west_old : ∀ i < t.n, t'.scanWest i = t.scanWest i
  wind_old : ∀ i < t.n, t'.winding i = t.winding i
  orig_old : ∀ i < t.n, t'.origSeg i = t.origSeg i
  east_old : ∀ i < t.n, t'.scanEast i = t.scanEast i
  east_new : ∀ i, t.n ≤ i → i < t'.n →
    t'.scanEast i = if (En.map fun e => nOf e.segIdx).getLast? = some i then B.head?.map (out t) else none
  after : t'.scanAfter = t.scanAfter ++
    if En = [] ∧ (A ≠ [] ∨ B ≠ []) then [(y, A.getLast?.map (out t), B.head?.map (out t))] else []
  open_old : ∀ a, a ∈ A ∨ a ∈ B → t'.openSegs a = t.openSegs a
  new : ∀ e ∈ En, t'.openSegs e.segIdx = [nOf e.segIdx] ∧ t.n ≤ nOf e.segIdx ∧ nOf e.segIdx < t'.n ∧
    ∃ p, t'.pointIdx ⟨nOf e.segIdx, true⟩ = some p ∧ t'.points[p]? = some (e.x1, y)
  west : ∀ l1 a l2, (En.map fun e => nOf e.segIdx) = l1 ++ a :: l2 → t'.scanWest a = l1.getLast?.or (A.getLast?.map (out t))
  kinds : ∀ i, t.n ≤ i → i < t'.n → (∃ e ∈ En, i = nOf e.segIdx) ∨ ∃ a b, Runs t' i (a, y) (b, y)
  vert_old : ∀ i < t.n, t.pointIdx ⟨i, false⟩ = none → ∀ a b, Runs t' i a b → a.2 ≠ b.2
  closed : ∀ e ∈ Eo, ∃ p, t'.pointIdx ⟨out t e.segIdx, false⟩ = some p ∧ t'.points[p]? = some (e.x0, y)

theorem range_res (hsingle : ∀ s b, single s (!b) = - single s b) (H : RangeHyp single orient hist A B y E Eo En B.head?)
    (hinv : LineInv single orient hist (A ++ Eo.map OutputEvent.segIdx ++ B) t)
    (hp : processRange single orient y E A.getLast? B.head? false t = some t') :
    ∃ nOf, Res y A B Eo En t t' nOf := by
  obtain ⟨s, hrun, hs, hl, nOf, F⟩ := range_loop single orient hsingle hist A B y E Eo En _ H t hinv _ _ rfl rfl
  refine ⟨nOf, ?_⟩
  have hout : ∀ a, a ∈ A ∨ a ∈ B → (t.openSegs a).head? = some (out t a) := by
    intro a ha
    obtain ⟨o, _, _, _, h1, _⟩ := hinv.openIn a (by simp only [List.mem_append]; tauto)
    unfold out; rw [h1]; rfl
  have hsw : (A.getLast?.bind fun s => (t.openSegs s).head?) = A.getLast?.map (out t) := by
    cases hA : A.getLast? with
    | none => rfl
    | some a => simp only [Option.bind_some, Option.map_some]; exact hout a (.inl (List.mem_of_getLast? hA))
  have houtB : ∀ b, B.head? = some b → (s.t.openSegs b).head? = some (out t b) := by
    intro b hb
    rw [F.open_old b (.inr (List.mem_of_head? hb))]; exact hout b (.inr (List.mem_of_head? hb))
  have houtA : ∀ a, A.getLast? = some a → (s.t.openSegs a).head? = some (out t a) := by
    intro a ha
    rw [F.open_old a (.inl (List.mem_of_getLast? ha))]; exact hout a (.inl (List.mem_of_getLast? ha))
  have hwest := F.west
  rw [hsw] at hwest
  unfold processRange at hp
  simp only [hrun] at hp
  have base : ∀ (E' : Nat → Option Nat) (af : List (K × Option Nat × Option Nat)), t' = { s.t with scanEast := E', scanAfter := af } →
      (∀ i < t.n, E' i = t.scanEast i) →
      (∀ i, t.n ≤ i → i < s.t.n → E' i = if (En.map fun e => nOf e.segIdx).getLast? = some i then B.head?.map (out t) else none) →
      (af = t.scanAfter ++ if En = [] ∧ (A ≠ [] ∨ B ≠ []) then [(y, A.getLast?.map (out t), B.head?.map (out t))] else []) →
      Res y A B Eo En t t' nOf := by
    rintro E' af rfl h1 h2 h3
    exact ⟨F.n_le, F.pidx_old, F.points_old, F.west_old, F.wind_old, F.orig_old, h1, h2, h3, F.open_old, F.new, hwest, F.kinds, F.vert_old, F.closed⟩
  cases hd : s.lastDown with
  | some seg =>
    have hlast := F.last
    rw [hd] at hlast
    have hEn : En ≠ [] := by rintro rfl; simp at hlast
    have hseg : t.n ≤ seg := by
      have := List.mem_of_getLast? hlast.symm
      obtain ⟨e, he, rfl⟩ := List.mem_map.1 this
      exact (F.new e he).2.1
    rw [hd] at hp
    cases hB : B.head? with
    | none =>
      rw [hB] at hp
      simp only [Option.some.injEq] at hp
      refine base s.t.scanEast s.t.scanAfter hp.symm F.east_old ?_ ?_
      · intro i h1 h2
        rw [F.east_new i h1 h2, hB]; simp
      · rw [F.after_old, if_neg (by simp [hEn])]; simp
    | some b =>
      rw [hB] at hp
      simp only [Bool.false_eq_true, if_false, Option.some.injEq] at hp
      refine base (Verif.Topo.set s.t.scanEast seg (s.t.openSegs b).head?) s.t.scanAfter hp.symm ?_ ?_ ?_
      · intro i hi
        unfold Verif.Topo.set
        rw [if_neg (by omega)]; exact F.east_old i hi
      · intro i h1 h2
        unfold Verif.Topo.set
        rw [← hlast, hB, houtB b hB]
        by_cases hi : i = seg
        · subst hi; simp
        · rw [if_neg hi, if_neg (by simpa using fun h => hi h.symm)]; exact F.east_new i h1 h2
      · rw [F.after_old, if_neg (by simp [hEn])]; simp
  | none =>
    have hEn := hl hd
    rw [hd] at hp
    simp only at hp
    have he2 : ∀ i, t.n ≤ i → i < s.t.n →
        s.t.scanEast i = if (En.map fun e => nOf e.segIdx).getLast? = some i then B.head?.map (out t) else none := by
      intro i h1 h2
      rw [F.east_new i h1 h2, hEn]; simp
    have hnA : A = [] ↔ A.getLast? = none := by simp
    have hnB : B = [] ↔ B.head? = none := by simp
    cases hA : A.getLast? with
    | none =>
      cases hB : B.head? with
      | none =>
        rw [hA, hB] at hp
        simp only [Option.map_none, Option.join_none, Option.isSome_none, Bool.or_self, Bool.false_eq_true, if_false, Option.some.injEq] at hp
        refine base s.t.scanEast s.t.scanAfter hp.symm F.east_old he2 ?_
        rw [F.after_old, if_neg (by rw [Ne, Ne, hnA, hnB, hA, hB]; simp)]; simp
      | some b =>
        rw [hA, hB] at hp
        simp only [Option.map_none, Option.map_some, houtB b hB, Option.join_none, Option.join_some, Option.isSome_none, Option.isSome_some,
          Bool.or_true, if_true, Option.some.injEq] at hp
        refine base s.t.scanEast _ hp.symm F.east_old he2 ?_
        rw [F.after_old, if_pos ⟨hEn, .inr (by rw [Ne, hnB, hB]; simp)⟩, hA, hB]; rfl
    | some a =>
      cases hB : B.head? with
      | none =>
        rw [hA, hB] at hp
        simp only [Option.map_none, Option.map_some, houtA a hA, Option.join_none, Option.join_some, Option.isSome_none, Option.isSome_some,
          Bool.or_false, if_true, Option.some.injEq] at hp
        refine base s.t.scanEast _ hp.symm F.east_old he2 ?_
        rw [F.after_old, if_pos ⟨hEn, .inl (by rw [Ne, hnA, hA]; simp)⟩, hA, hB]; rfl
      | some b =>
        rw [hA, hB] at hp
        simp only [Option.map_some, houtA a hA, houtB b hB, Option.join_some, Option.isSome_some,
          Bool.or_self, if_true, Option.some.injEq] at hp
        refine base s.t.scanEast _ hp.symm F.east_old he2 ?_
        rw [F.after_old, if_pos ⟨hEn, .inl (by rw [Ne, hnA, hA]; simp)⟩, hA, hB]; rfl

end

end Verif.Scan
