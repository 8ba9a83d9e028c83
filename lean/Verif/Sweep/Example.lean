import Verif.Sweep.Main
import Verif.Topo.Eval

/-!
# A concrete sweep

A bow tie: the diagonals of a square of side 32, which cross in the middle, and its two horizontal sides. All the hypotheses of the
theorems about the sweep and the driver hold of it, and the driver gives the expected topology.
-/

namespace Verif.Sweep
open Verif.Curve Verif.Range Verif.Topo Verif.Scan Verif.Merge
set_option linter.unusedSectionVars false

/-- The simplest binary search: the first place where the predicate is false. -/
def firstFalse (P : Nat → Bool) (l : List Nat) : Nat := (l.takeWhile P).length

theorem firstFalse_pp {K : Type} [LinearOrder K] (E : Env K) (h : E.pp = firstFalse) : E.PP := by
  have hle : ∀ (P : Nat → Bool) (l : List Nat), firstFalse P l ≤ l.length := fun P l => (List.takeWhile_prefix P).length_le
  constructor
  · intro P l; rw [h]; exact hle P l
  · intro P l
    rw [h]
    induction l with
    | nil => intro i a _ h; simp at h
    | cons b l ih =>
      intro i a h1 h2
      unfold firstFalse at h1 ih
      rw [List.takeWhile_cons] at h1
      split at h1
      · rename_i hb
        cases i with
        | zero =>
          have : b = a := by simpa using h2
          rw [← this]; exact hb
        | succ i =>
          rw [List.length_cons] at h1
          exact ih i a (by omega) (by simpa using h2)
      · simp at h1
  · intro P l
    rw [h]
    induction l with
    | nil => intro a h; simp at h
    | cons b l ih =>
      intro a h2
      unfold firstFalse at h2 ih
      rw [List.takeWhile_cons] at h2
      split at h2
      · rw [List.length_cons, List.getElem?_cons_succ] at h2
        exact ih a h2
      · rename_i hb
        have : b = a := by simpa using h2
        rw [← this]; simpa using hb
  · intro P Q l hPQ
    rw [h]
    induction l with
    | nil => simp [firstFalse]
    | cons b l ih =>
      unfold firstFalse at ih ⊢
      rw [List.takeWhile_cons, List.takeWhile_cons]
      split
      · rename_i hb
        rw [if_pos (hPQ b (by simp) hb), List.length_cons, List.length_cons]
        have := ih fun a ha => hPQ a (by simp [ha])
        omega
      · simp

/-- The sweep lines, one after the other. -/
def nthLine {K : Type} [LinearOrder K] (E : Env K) (fuel : Nat) : Nat → Option (State K)
  | 0 => (nextLine E fuel (State.new E)).join
  | n + 1 => (nthLine E fuel n).bind fun s => (nextLine E fuel s).join

theorem Reached.nth {K : Type} [LinearOrder K] {E : Env K} {fuel : Nat} {s : State K} (h : Reached E fuel s) : ∃ n, nthLine E fuel n = some s := by
  induction h with
  | first s h => exact ⟨0, by simp [nthLine, h]⟩
  | next s s' _ h ih =>
    obtain ⟨n, hn⟩ := ih
    exact ⟨n + 1, by simp [nthLine, hn, h]⟩

theorem nthLine_none {K : Type} [LinearOrder K] {E : Env K} {fuel n : Nat} (h : nthLine E fuel n = none) (m : Nat) : nthLine E fuel (n + m) = none := by
  induction m with
  | zero => exact h
  | succ m ih => rw [← Nat.add_assoc]; simp [nthLine, ih]

theorem nth_reached {K : Type} [LinearOrder K] {E : Env K} {fuel : Nat} : ∀ {n : Nat} {s : State K}, nthLine E fuel n = some s → Reached E fuel s := by
  intro n
  induction n with
  | zero =>
    intro s h
    simp only [nthLine] at h
    exact .first s (Option.join_eq_some_iff.1 h)
  | succ n ih =>
    intro s h
    simp only [nthLine] at h
    obtain ⟨u, h1, h2⟩ := Option.bind_eq_some_iff.1 h
    exact .next u s (ih h1) (Option.join_eq_some_iff.1 h2)

/-- A property of all sweep lines, by computing them. -/
theorem Reached.forall {K : Type} [LinearOrder K] {E : Env K} {fuel : Nat} (n : Nat) (hn : (nthLine E fuel n).isNone = true) (P : State K → Prop)
    (h : ∀ k < n, ∀ s, nthLine E fuel k = some s → P s) : ∀ s, Reached E fuel s → P s := by
  intro s hs
  obtain ⟨k, hk⟩ := hs.nth
  refine h k ?_ s hk
  by_contra hge
  have := nthLine_none (n := n) (by simpa using hn) (k - n)
  rw [Nat.add_sub_cancel' (by omega), hk] at this
  simp at this

/-- `OrdC`, computed. -/
def ordCheck (E : Env Int) (y : Int) (l : List Nat) : Bool :=
  (List.range l.length).all fun i => (List.range l.length).all fun j =>
    match l[i]?, l[j]? with
    | some a, some b => !decide (i ≤ j) || (decide (E.atY a y < E.upper2 b y) && decide (E.lower2 a y ≤ E.atY b y))
    | _, _ => true

theorem ordCheck_sound {E : Env Int} {y : Int} {l : List Nat} (h : ordCheck E y l = true) : OrdC E y l := by
  unfold ordCheck at h
  rw [List.all_eq_true] at h
  have key : ∀ (i j a b : Nat), i ≤ j → l[i]? = some a → l[j]? = some b → E.atY a y < E.upper2 b y ∧ E.lower2 a y ≤ E.atY b y := by
    intro i j a b hij h1 h2
    have := h i (List.mem_range.2 (List.getElem?_eq_some_iff.1 h1).1)
    rw [List.all_eq_true] at this
    have := this j (List.mem_range.2 (List.getElem?_eq_some_iff.1 h2).1)
    rw [h1, h2] at this
    simp only [hij, decide_true, Bool.not_true, Bool.false_or, Bool.and_eq_true, decide_eq_true_eq] at this
    exact this
  exact ⟨fun _ i j a b hij h1 h2 => (key i j a b hij h1 h2).1, fun _ i j a b hij h1 h2 => (key i j a b hij h1 h2).2⟩

/-- Segment 0 goes down from (0,0) to (32,32), 2 goes down from (32,0) to (0,32), 1 and 3 are the horizontal sides. -/
def bowAt : Nat → Int → Int
  | 0, y => y
  | 2, y => 32 - y
  | _, _ => 0

def bow : Env Int where
  entrances := [(0, 0), (0, 2), (0, 3), (32, 1)]
  exits := [(32, 0), (32, 2)]
  startX := fun s => if s = 2 then 32 else 0
  startY := fun s => if s = 1 then 32 else 0
  endX := fun s => if s = 2 then 0 else 32
  endY := fun s => if s = 3 then 0 else 32
  orient := fun s => s == 0
  contourPrev := fun s => some ((s + 3) % 4)
  contourNext := fun s => some ((s + 1) % 4)
  atY := bowAt
  lower := fun s y => bowAt s y - 1
  upper := fun s y => bowAt s y + 1
  lower2 := fun s y => bowAt s y - 2
  upper2 := fun s y => bowAt s y + 2
  lowerBound := fun _ => -1
  upperBound := fun _ => 33
  farRight := fun _ _ => false
  farLeft := fun _ _ => false
  cmp := fun a b => if a < b then ⟨0, [⟨15, .left⟩, ⟨17, .ish⟩, ⟨32, .right⟩]⟩ else ⟨0, [⟨15, .right⟩, ⟨17, .ish⟩, ⟨32, .left⟩]⟩
  cons := fun a b => if a < b then ⟨0, [⟨12, .left⟩, ⟨20, .ish⟩, ⟨32, .right⟩]⟩ else ⟨0, [⟨12, .right⟩, ⟨20, .ish⟩, ⟨32, .left⟩]⟩
  mid := fun a b => (a + b) / 2
  pp := firstFalse
  negInf := -1000
  posInf := 1000

def unitSingle : Nat → Bool → Int := fun _ b => if b then 1 else -1

theorem bow_valid : bow.Valid unitSingle 50 := by
  constructor
  case sched =>
    refine ⟨by decide, by decide, by decide, by decide, by decide, by decide, ?_, by decide⟩
    intro s
    by_cases hs : s < 4
    · have : ∀ s < 4, (s ∈ bow.exits.map Prod.snd ↔ s ∈ bow.entrances.map Prod.snd ∧ bow.isHorizontal s = false) := by decide
      exact this s hs
    · have h1 : s ∉ bow.exits.map Prod.snd := by
        intro h
        have : ∀ s ∈ bow.exits.map Prod.snd, s < 4 := by decide
        exact hs (this s h)
      have h2 : s ∉ bow.entrances.map Prod.snd := by
        intro h
        have : ∀ s ∈ bow.entrances.map Prod.snd, s < 4 := by decide
        exact hs (this s h)
      tauto
  case exact =>
    show ∀ x ∈ bow.entrances.map Prod.snd, _
    decide
  case pp => exact firstFalse_pp bow rfl
  case contours =>
    refine ⟨?_, ?_, ?_, ?_⟩ <;> (show ∀ s ∈ bow.entrances.map Prod.snd, _) <;> decide
  case neg => intro s b; cases b <;> rfl
  case ord =>
    refine Reached.forall 3 (by decide +kernel) _ ?_
    intro k hk s hs
    apply ordCheck_sound
    have : ∀ k < 3, ((nthLine bow 50 k).all fun s => ordCheck bow s.y (s.line.map Entry.seg)) = true := by decide +kernel
    have := this k hk
    rw [hs] at this
    exact this

/-! The driver, with a version of `process_sweep_line_range` that the kernel can run (see `Verif.Topo.Eval`). -/

section
variable {K : Type} [LinearOrder K] {W : Type} [AddCommGroup W]

def lineE (E : Env K) (single : Nat → Bool → W) (s : State K) : List CI → List Entry → Topo K W → Option (List Entry × Topo K W)
  | [], buf, t => some (buf, t)
  | c :: cs, buf, t =>
    match nextRange E s buf c with
    | none => none
    | some (buf, evs) =>
      let west := if c.start = 0 then none else s.line[c.start - 1]?.map Entry.seg
      let east := s.line[c.stop]?
      match rangeE single E.orient s.y evs west (east.map Entry.seg) ((east.map Entry.inCh).getD false) t with
      | none => none
      | some t => lineE E single s cs buf t

theorem lineE_eq (E : Env K) (single : Nat → Bool → W) (s : State K) (cs : List CI) : ∀ (buf : List Entry) (t : Topo K W) (r : List Entry × Topo K W),
    lineE E single s cs buf t = some r → processLine E single s cs buf t = some r := by
  induction cs with
  | nil => intro buf t r h; simpa [lineE, processLine] using h
  | cons c cs ih =>
    intro buf t r h
    simp only [lineE] at h
    simp only [processLine]
    split at h
    · simp at h
    rename_i buf' evs hn
    split at h
    · simp at h
    rename_i t' ht
    rw [hn]
    simp only
    rw [rangeE_eq _ _ _ _ _ _ _ _ _ ht]
    exact ih _ _ _ h

def sweepE (E : Env K) (single : Nat → Bool → W) (fuel2 : Nat) : Nat → State K → List Entry → Topo K W → Option (Topo K W)
  | 0, _, _, _ => none
  | fuel + 1, s, buf, t =>
    match nextLine E fuel2 s with
    | none => none
    | some none => some t
    | some (some s) =>
      match lineE E single s s.chg buf t with
      | none => none
      | some (buf, t) => sweepE E single fuel2 fuel s buf t

theorem sweepE_eq (E : Env K) (single : Nat → Bool → W) (fuel2 fuel : Nat) : ∀ (s : State K) (buf : List Entry) (t t' : Topo K W),
    sweepE E single fuel2 fuel s buf t = some t' → sweepLoop E single fuel2 fuel s buf t = some t' := by
  induction fuel with
  | zero => intro s buf t t' h; simp [sweepE] at h
  | succ fuel ih =>
    intro s buf t t' h
    simp only [sweepE] at h
    simp only [sweepLoop]
    split at h
    · simp at h
    · rename_i hn; rw [hn]; exact h
    · rename_i s1 hn
      split at h
      · simp at h
      rename_i buf1 t1 hl
      rw [hn]
      simp only
      rw [lineE_eq _ _ _ _ _ _ _ hl]
      exact ih _ _ _ _ h
end

/-- The driver succeeds on it and finds the crossing: two horizontal sides and two pieces of each diagonal. -/
theorem bow_result : ∃ t, fromSegments bow unitSingle 50 50 = some t ∧ t.n = 6 ∧
    t.points = [(0, 0), (32, 0), (16, 16), (0, 32), (32, 32)] ∧ (List.range t.n).map t.origSeg = [0, 3, 2, 2, 0, 1] := by
  have h : (match sweepE bow unitSingle 50 50 (State.new bow) [] Topo.init with
      | none => false
      | some t => decide (t.n = 6 ∧ t.points = [(0, 0), (32, 0), (16, 16), (0, 32), (32, 32)] ∧
          (List.range t.n).map t.origSeg = [0, 3, 2, 2, 0, 1])) = true := by decide +kernel
  cases ht : sweepE bow unitSingle 50 50 (State.new bow) [] Topo.init with
  | none => rw [ht] at h; simp at h
  | some t =>
    rw [ht] at h
    simp only [decide_eq_true_eq] at h
    exact ⟨t, sweepE_eq _ _ _ _ _ _ _ _ ht, h⟩

end Verif.Sweep
