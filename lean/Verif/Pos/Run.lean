import Verif.Pos.Scans

/-!
# The main loop of `compute_positions` (`src/position.rs`:279-356)
-/

namespace Verif.Pos
open Verif.Curve Verif.Geom Verif.Scan

/-! ## The queue -/

theorem greatest_mem : ∀ (l : List (ℝ × Nat)) (e : ℝ × Nat), greatest e l ∈ e :: l := by
  intro l
  induction l with
  | nil => intro e; simp [greatest]
  | cons f l ih =>
    intro e
    rw [greatest]
    by_cases h : greater e f = true
    · rw [if_pos h]
      rcases List.mem_cons.1 (ih e) with h | h
      · rw [h]; simp
      · simp [h]
    · rw [if_neg h]
      exact List.mem_cons_of_mem _ (ih f)

/-- The order of the entries: one that comes first has a smaller height, or the same height and a greater index. -/
def Before (a b : ℝ × Nat) : Prop := a.1 < b.1 ∨ (a.1 = b.1 ∧ b.2 ≤ a.2)

theorem Before.trans {a b c : ℝ × Nat} (h : Before a b) (h' : Before b c) : Before a c := by
  rcases h with h | ⟨h, k⟩ <;> rcases h' with h' | ⟨h', k'⟩
  · exact .inl (h.trans h')
  · exact .inl (h' ▸ h)
  · exact .inl (h ▸ h')
  · exact .inr ⟨h.trans h', k'.trans k⟩

theorem Before.refl (a : ℝ × Nat) : Before a a := .inr ⟨rfl, le_rfl⟩

theorem greater_iff (a b : ℝ × Nat) : greater a b = true ↔ Before a b := by
  unfold greater Before; simp

theorem not_before {a b : ℝ × Nat} (h : ¬ Before a b) : Before b a := by
  unfold Before at *
  push Not at h
  rcases lt_or_eq_of_le h.1 with h1 | h1
  · exact .inl h1
  · exact .inr ⟨h1, (h.2 h1.symm).le⟩

theorem greatest_first : ∀ (l : List (ℝ × Nat)) (e : ℝ × Nat), ∀ f ∈ e :: l, Before (greatest e l) f := by
  intro l
  induction l with
  | nil => intro e f hf; simp at hf; rw [hf]; exact .refl _
  | cons g l ih =>
    intro e f hf
    rw [greatest]
    by_cases h : greater e g = true
    · rw [if_pos h]
      rw [greater_iff] at h
      rcases List.mem_cons.1 hf with rfl | hf
      · exact ih f f (by simp)
      · rcases List.mem_cons.1 hf with rfl | hf
        · exact (ih e e (by simp)).trans h
        · exact ih e f (by simp [hf])
    · rw [if_neg h]
      rw [greater_iff] at h
      rcases List.mem_cons.1 hf with rfl | hf
      · exact (ih g g (by simp)).trans (not_before h)
      · exact ih g f hf

theorem popMax_spec {q q' : List (ℝ × Nat)} {e : ℝ × Nat} (h : popMax q = some (e, q')) : q.Perm (e :: q') ∧ ∀ f ∈ q, Before e f := by
  classical
  cases q with
  | nil => simp [popMax] at h
  | cons a l =>
    simp only [popMax, Option.some.injEq, Prod.mk.injEq] at h
    obtain ⟨rfl, rfl⟩ := h
    refine ⟨?_, greatest_first l a⟩
    convert List.perm_cons_erase (greatest_mem l a)

theorem popMax_none {q : List (ℝ × Nat)} (h : popMax q = none) : q = [] := by
  cases q with
  | nil => rfl
  | cons a l => simp [popMax] at h

/-! ## One entry -/

theorem nextSub_stop (s : Seg) (p : OPath) (y : ℝ) (q : Pt) : (nextSub s p y q).p3.y = y := by
  unfold nextSub
  simp only
  split
  · assumption
  · rfl

/-- The end points of the elements of a path are between two heights. -/
def Between (a b : ℝ) (p : OPath) : Prop := ∀ e ∈ p.els, a ≤ e.stop.y ∧ e.stop.y ≤ b

/-- What is true of the path of an output segment at any time. -/
structure PathOk (I : Input) (o : Nat) (p : OPath) : Prop where
  start : p.start = I.first o
  copied : ∀ k, p.copied = some k → k < p.els.length
  between : Between (I.first o).y (I.second o).y p
  flat : (I.first o).y = (I.second o).y → p = initPath I o

theorem initPath_ok (I : Input) (o : Nat) : PathOk I o (initPath I o) := by
  unfold initPath
  split
  · rename_i h
    exact ⟨rfl, by simp, by intro e he; simp at he; subst he; simp [El.stop, h], fun _ => by rw [initPath, if_pos h]⟩
  · rename_i h
    exact ⟨rfl, by simp, by intro e he; simp at he, fun h' => absurd h' h⟩

theorem ensureOne_ok {I : Input} {o : Nat} {y0 : ℝ} (ha : Alive I o y0) {p : OPath} (h : PathOk I o p) : PathOk I o (ensureOne I y0 o p) := by
  unfold ensureOne
  split
  · split
    · refine ⟨h.start, ?_, ?_, fun e => absurd e (by have := ha.2; linarith)⟩
      · intro k hk
        simp only [OPath.push, Option.some.injEq] at hk ⊢
        simp [← hk]
      · intro e he
        simp only [OPath.push, List.mem_append, List.mem_singleton] at he
        rcases he with he | rfl
        · exact h.between e he
        · have := ha.2
          exact ⟨by simp only [El.stop]; linarith, le_rfl⟩
    · refine ⟨h.start, ?_, ?_, fun e => absurd e (by have := ha.2; linarith)⟩
      · intro k hk
        simp only [OPath.push, Option.some.injEq] at hk ⊢
        simp [← hk]
      · intro e he
        simp only [OPath.push, List.mem_append, List.mem_singleton] at he
        rcases he with he | rfl
        · exact h.between e he
        · simp only [El.stop, nextSub_stop]
          exact ⟨ha.2.1, ha.2.2.le⟩
  · exact h

theorem stacked_between {y0 y1 : ℝ} {ss : List Strip} (h : Stacked y0 y1 ss) (o : Nat) : ∀ e ∈ ss.map fun s => s.el o, y0 < e.stop.y ∧ e.stop.y ≤ y1 := by
  induction h with
  | nil => simp
  | cons s h hst ih =>
    intro e he
    rw [List.map_cons] at he
    rcases List.mem_cons.1 he with rfl | he
    · exact ⟨h, hst.le⟩
    · exact ⟨h.trans (ih e he).1, (ih e he).2⟩

theorem strips_ok {I : Input} {o : Nat} {y0 y1 : ℝ} (ha : Alive I o y0) (h1 : y1 ≤ (I.second o).y) {ss : List Strip} (hs : Stacked y0 y1 ss) {p : OPath}
    (h : PathOk I o p) : PathOk I o { p with els := p.els ++ ss.map fun s => s.el o } := by
  refine ⟨h.start, ?_, ?_, fun e => absurd e (by have := ha.2; linarith)⟩
  · intro k hk
    have := h.copied k hk
    simp only [List.length_append]; omega
  · intro e he
    rcases List.mem_append.1 he with he | he
    · exact h.between e he
    · have := stacked_between hs o e he
      have := ha.2.1
      exact ⟨by linarith, by linarith⟩

/-- What is true at the beginning of each pass of the main loop. -/
structure SInv (I : Input) (s : PState) : Prop where
  queue : ∀ e ∈ s.queue, Alive I e.2 e.1 ∧ Height I e.1
  path : ∀ o, PathOk I o (s.out o)

/-- The possible effects of the treatment of an entry on the paths. -/
inductive Effect (I : Input) (y0 y1 : ℝ) (nbrs : List Nat) (out : Nat → OPath) : (Nat → OPath) → Prop
  | nothing (h : (∃ o, nbrs = [o]) ∨ LeftAlone I y0 y1 nbrs out) : Effect I y0 y1 nbrs out out
  | strips (h2 : ∀ o, nbrs ≠ [o]) (hl : ¬ LeftAlone I y0 y1 nbrs out) (ss : List Strip) (hs : Stacked y0 y1 ss) (ok : ∀ s ∈ ss, StripOk I nbrs s) (out' : Nat → OPath)
      (h : ∀ o, out' o = if o ∈ nbrs then { ensureOne I y0 o (out o) with els := (ensureOne I y0 o (out o)).els ++ ss.map fun s => s.el o } else out o) :
      Effect I y0 y1 nbrs out out'

/-- A group of neighbours on the line `L` at the height `y0`, not definitely ordered up to `y1`, with definite orders at both ends. -/
structure Group (I : Input) (y0 y1 : ℝ) (nbrs : List Nat) : Prop where
  lt : y0 < y1
  le : ∀ o ∈ nbrs, y1 ≤ (I.second o).y
  height : Height I y1
  nodup : nbrs.Nodup
  alive : ∀ o ∈ nbrs, Alive I o y0
  tied : List.IsChain (fun a b => Tied y0 y1 (I.cmp (I.orig a) (I.orig b))) nbrs
  next : List.IsChain (fun a b => neighborAfter (I.maps.east a) y0 = some b) nbrs
  ends : ∃ L l1 l2, L = l1 ++ nbrs ++ l2 ∧ L.Nodup ∧ (∀ o, o ∈ L ↔ Alive I o y0) ∧
    (∀ d ∈ l1.getLast?, ∀ c ∈ nbrs.head?, Apart y0 (I.cmp (I.orig d) (I.orig c))) ∧
    (∀ d ∈ l2.head?, ∀ c ∈ nbrs.getLast?, Apart y0 (I.cmp (I.orig c) (I.orig d)))

theorem nodup_len_le {n : Nat} {l : List Nat} (h : l.Nodup) (hl : ∀ o ∈ l, o < n) : l.length ≤ n := by
  have : l ⊆ List.range n := fun o ho => List.mem_range.2 (hl o ho)
  simpa using (h.subperm this).length_le

open Classical in
/-- The treatment of an entry that was not treated before. -/
theorem handle_spec {I : Input} (ok : I.Ok) {e : ℝ × Nat} (ha : Alive I e.2 e.1) (s : PState) :
    (e.1 < s.lastY e.2 ∧ ∀ n, handle I n e s = some s) ∨
    (¬ e.1 < s.lastY e.2 ∧ ∃ y1 nbrs s' N, e.2 ∈ nbrs ∧ Group I e.1 y1 nbrs ∧ Effect I e.1 y1 nbrs s.out s'.out ∧
      (s'.lastY = fun i => if i ∈ nbrs then y1 else s.lastY i) ∧
      s'.queue = s.queue ++ (nbrs.filter fun i => decide (y1 < (I.second i).y)).map (fun i => (y1, i)) ∧ ∀ n ≥ N, handle I n e s = some s') := by
  by_cases hl : e.1 < s.lastY e.2
  · exact .inl ⟨hl, fun n => by rw [handle, if_pos hl]⟩
  · refine .inr ⟨hl, ?_⟩
    obtain ⟨y1, west, y1', east, h1, h2, h3, h4, h5, h6, L, l1, l2, h7, h8, h9, h10, h10', h11, h12⟩ := scans_spec ok ha
    have hnd : (west.reverse ++ east).Nodup := by
      rw [h7] at h8
      exact (List.nodup_append.1 (List.nodup_append.1 h8).1).2.1
    have hal : ∀ o ∈ west.reverse ++ east, Alive I o e.1 := fun o ho => (h9 o).1 (by rw [h7]; simp only [List.mem_append] at ho ⊢; tauto)
    have hg : Group I e.1 y1' (west.reverse ++ east) := ⟨h4, h5, h3, hnd, hal, h10, h10', L, l1, l2, h7, h8, h9, h11, h12⟩
    have hh : ∀ n, handle I n e s = place I n e.2 e.1 y1' (west.reverse ++ east) s := fun n => by
      rw [handle, if_neg hl, h1]
      simp only [h2]
    by_cases hone : (west.reverse ++ east).length = 1
    · refine ⟨y1', west.reverse ++ east, ⟨s.out, fun i => if i ∈ west.reverse ++ east then y1' else s.lastY i,
        s.queue ++ ((west.reverse ++ east).filter fun i => decide (y1' < (I.second i).y)).map fun i => (y1', i)⟩, 0, h6, hg, .nothing (.inl (List.length_eq_one_iff.1 hone)), rfl, rfl, ?_⟩
      intro n _
      rw [hh, place]
      simp only [hone, if_true, h4.ne, if_false, Option.map_some]
    · obtain ⟨N, out', hN⟩ := allClose_total I ok.acc (west.reverse ++ east) e.1 y1' s.out
      refine ⟨y1', west.reverse ++ east, ⟨out', fun i => if i ∈ west.reverse ++ east then y1' else s.lastY i,
        s.queue ++ ((west.reverse ++ east).filter fun i => decide (y1' < (I.second i).y)).map fun i => (y1', i)⟩, N, h6, hg, ?_, rfl, rfl, ?_⟩
      · rcases allClose_spec I hnd h4.le hN with ⟨k0, rfl⟩ | ⟨k0, ss, k1, k2, k3⟩
        · exact .nothing (.inr k0)
        · exact .strips (fun o e => hone (by rw [e]; rfl)) k0 ss k1 k2 _ k3
      · intro n hn
        rw [hh, place]
        simp only [hone, if_false]
        rw [allClose_mono I hn hN]
        rfl

theorem Effect.path {I : Input} {y0 y1 : ℝ} {nbrs : List Nat} {out out' : Nat → OPath} (h : Effect I y0 y1 nbrs out out') (hg : Group I y0 y1 nbrs)
    (hp : ∀ o, PathOk I o (out o)) : ∀ o, PathOk I o (out' o) := by
  intro o
  cases h with
  | nothing => exact hp o
  | strips _ _ ss hs ok _ h =>
    rw [h o]
    split
    · rename_i ho
      exact strips_ok (hg.alive o ho) (hg.le o ho) hs (ensureOne_ok (hg.alive o ho) (hp o))
    · exact hp o

/-! ## Termination -/

/-- The weight of an entry: entries at smaller heights outweigh any number, up to the number of output segments, of entries at greater heights. -/
noncomputable def weight (I : Input) (e : ℝ × Nat) : ℕ :=
  open Classical in (I.n + 1) ^ ((height_finite I).toFinset.filter fun h => e.1 < h).card

noncomputable def total (I : Input) (q : List (ℝ × Nat)) : ℕ := (q.map (weight I)).sum

theorem total_perm {I : Input} {q q' : List (ℝ × Nat)} (h : q.Perm q') : total I q = total I q' := (h.map _).sum_eq

theorem weight_lt {I : Input} {a : ℝ × Nat} {y1 : ℝ} (h : a.1 < y1) (hh : Height I y1) (l : List Nat) (hl : l.length ≤ I.n) :
    total I (l.map fun i => (y1, i)) < weight I a := by
  classical
  have h1 : total I (l.map fun i => (y1, i)) = l.length * weight I (y1, 0) := by
    unfold total
    rw [List.map_map]
    have : (weight I ∘ fun i => (y1, i)) = fun _ : ℕ => weight I (y1, 0) := rfl
    rw [this]
    simp
  have h2 : ((height_finite I).toFinset.filter fun h => y1 < h).card < ((height_finite I).toFinset.filter fun h => a.1 < h).card := by
    apply Finset.card_lt_card
    refine ⟨?_, ?_⟩
    · intro x hx
      simp only [Finset.mem_filter] at hx ⊢
      exact ⟨hx.1, h.trans hx.2⟩
    · intro hsub
      have : y1 ∈ (height_finite I).toFinset.filter fun h => a.1 < h := by simp [h, hh]
      have := hsub this
      simp at this
  rw [h1]
  obtain ⟨k, hk⟩ : ∃ k, ((height_finite I).toFinset.filter fun h => a.1 < h).card = ((height_finite I).toFinset.filter fun h => y1 < h).card + (k + 1) :=
    (Nat.exists_eq_add_of_lt h2).imp fun j hj => by omega
  have e2 : weight I a = (I.n + 1) ^ (((height_finite I).toFinset.filter fun h => y1 < h).card + (k + 1)) := by
    rw [← hk]; unfold weight; congr!
  have e1 : weight I (y1, 0) = (I.n + 1) ^ ((height_finite I).toFinset.filter fun h => y1 < h).card := by unfold weight; congr!
  rw [e1, e2, pow_add]
  have p1 : 0 < (I.n + 1) ^ ((height_finite I).toFinset.filter fun h => y1 < h).card := by positivity
  have p2 : I.n + 1 ≤ (I.n + 1) ^ (k + 1) := Nat.le_self_pow (by omega) _
  calc l.length * (I.n + 1) ^ ((height_finite I).toFinset.filter fun h => y1 < h).card
      < (I.n + 1) * (I.n + 1) ^ ((height_finite I).toFinset.filter fun h => y1 < h).card := by
        exact Nat.mul_lt_mul_of_pos_right (by omega) p1
    _ ≤ _ := by rw [mul_comm]; exact Nat.mul_le_mul_left _ p2

/-- The main loop ends, and every invariant of the treatment of entries holds at its end. -/
theorem mainLoop_total {I : Input} (ok : I.Ok) (P : PState → Prop)
    (hP : ∀ s e q, SInv I s → P s → popMax s.queue = some (e, q) →
      (e.1 < s.lastY e.2 → P { s with queue := q }) ∧
      (¬ e.1 < s.lastY e.2 → ∀ y1 nbrs s', e.2 ∈ nbrs → Group I e.1 y1 nbrs → Effect I e.1 y1 nbrs s.out s'.out →
        (s'.lastY = open Classical in fun i => if i ∈ nbrs then y1 else s.lastY i) →
        (s'.queue = open Classical in q ++ (nbrs.filter fun i => decide (y1 < (I.second i).y)).map (fun i => (y1, i))) → P s')) :
    ∀ (t : ℕ) (s : PState), total I s.queue ≤ t → SInv I s → P s →
      ∃ N s', (∀ n ≥ N, mainLoop I n s = some s') ∧ SInv I s' ∧ P s' := by
  intro t
  induction t using Nat.strong_induction_on with
  | _ t ih =>
    intro s ht hs hp
    cases hq : popMax s.queue with
    | none =>
      refine ⟨1, s, ?_, hs, hp⟩
      intro n hn
      obtain ⟨n, rfl⟩ : ∃ k, n = k + 1 := ⟨n - 1, by omega⟩
      simp only [mainLoop, hq]
    | some eq =>
      obtain ⟨e, q⟩ := eq
      obtain ⟨hperm, _⟩ := popMax_spec hq
      have hin : e ∈ s.queue := hperm.mem_iff.2 (by simp)
      have hsub : ∀ f ∈ q, f ∈ s.queue := fun f hf => hperm.mem_iff.2 (by simp [hf])
      have htot : total I s.queue = weight I e + total I q := by rw [total_perm hperm]; simp [total]
      have hpos : 0 < weight I e := by unfold weight; positivity
      obtain ⟨hp1, hp2⟩ := hP s e q hs hp hq
      -- what happens to the entry
      obtain ⟨N1, s1, g1, g2, g3, g4⟩ : ∃ N1 s1, (∀ n ≥ N1, handle I n e { s with queue := q } = some s1) ∧ SInv I s1 ∧ P s1 ∧
          total I s1.queue < total I s.queue := by
        rcases handle_spec ok (hs.queue e hin).1 { s with queue := q } with ⟨h1, h2⟩ | ⟨h1, y1, nbrs, s', N, h2, h3, h4, h5, h6, h7⟩
        · exact ⟨0, _, fun n _ => h2 n, ⟨fun f hf => hs.queue f (hsub f hf), hs.path⟩, hp1 h1, by
            show total I q < _
            omega⟩
        · refine ⟨N, s', h7, ⟨?_, h4.path h3 hs.path⟩, hp2 h1 y1 nbrs s' h2 h3 h4 h5 h6, ?_⟩
          · intro f hf
            rw [h6] at hf
            rcases List.mem_append.1 hf with hf | hf
            · exact hs.queue f (hsub f hf)
            · obtain ⟨i, hi, rfl⟩ := List.mem_map.1 hf
              rw [List.mem_filter] at hi
              have := h3.alive i hi.1
              exact ⟨⟨this.1, this.2.1.trans h3.lt.le, by simpa using hi.2⟩, h3.height⟩
          · rw [h6]
            have := weight_lt (I := I) h3.lt h3.height (nbrs.filter fun i => open Classical in decide (y1 < (I.second i).y))
              ((List.length_filter_le _ _).trans (nodup_len_le h3.nodup fun o ho => (h3.alive o ho).1))
            have e1 : ∀ a b, total I (a ++ b) = total I a + total I b := fun a b => by simp [total]
            rw [e1, htot]
            simp only
            omega
      obtain ⟨N2, s2, k1, k2, k3⟩ := ih (total I s1.queue) (by omega) s1 le_rfl g2 g3
      refine ⟨max N1 N2 + 1, s2, ?_, k2, k3⟩
      intro n hn
      obtain ⟨n, rfl⟩ : ∃ k, n = k + 1 := ⟨n - 1, by omega⟩
      simp only [mainLoop, hq]
      rw [g1 n (by omega)]
      exact k1 n (by omega)

theorem initState_inv {I : Input} (ok : I.Ok) : SInv I (initState I) := by
  refine ⟨?_, fun o => initPath_ok I o⟩
  intro e he
  obtain ⟨i, hi, rfl⟩ := List.mem_map.1 he
  rw [List.mem_filter] at hi
  have hn := List.mem_range.1 hi.1
  have hne : (I.first i).y ≠ (I.second i).y := by simpa using hi.2
  exact ⟨⟨hn, le_rfl, lt_of_le_of_ne (ok.down i hn) hne⟩, .inl ⟨i, hn, .inl rfl⟩⟩

end Verif.Pos
