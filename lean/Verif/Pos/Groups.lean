import Verif.Pos.Props

/-!
# The groups of the layout (C73), and the heights below zero (C40)
-/

namespace Verif.Pos
open Verif.Curve Verif.Geom Verif.Scan

/-- One step of the layout: the output segments `nbrs` are laid out together from `y0` to `y1`. -/
structure Step where
  y0 : ℝ
  y1 : ℝ
  nbrs : List Nat

/-- A history of the layout: the steps, and the paths after them. -/
inductive History (I : Input) : List Step → (Nat → OPath) → Prop
  | nil : History I [] (initPath I)
  | snoc (hist : List Step) (out : Nat → OPath) (st : Step) (out' : Nat → OPath) (h : History I hist out) (g : Group I st.y0 st.y1 st.nbrs)
      (e : Effect I st.y0 st.y1 st.nbrs out out') : History I (hist ++ [st]) out'

/-- The layout has seen all heights of `o` up to `y`. -/
def Seen (I : Input) (hist : List Step) (o : Nat) (y : ℝ) : Prop :=
  ∀ z, (I.first o).y ≤ z → z < y → ∃ st ∈ hist, o ∈ st.nbrs ∧ st.y0 ≤ z ∧ z < st.y1

theorem Seen.mono {I : Input} {hist : List Step} {o : Nat} {y : ℝ} (h : Seen I hist o y) (st : Step) : Seen I (hist ++ [st]) o y := by
  intro z h0 h1
  obtain ⟨s, hs, h⟩ := h z h0 h1
  exact ⟨s, by simp [hs], h⟩

/-- The invariant of the main loop. -/
structure HInv (I : Input) (hist : List Step) (s : PState) : Prop where
  made : History I hist s.out
  sorted : hist.Pairwise fun a b => a.y0 ≤ b.y0
  after : ∀ st ∈ hist, ∀ e ∈ s.queue, st.y0 ≤ e.1
  pos : ∀ o, 0 ≤ s.lastY o
  nonneg : ∀ st ∈ hist, 0 ≤ st.y0
  seen : ∀ o < I.n, 0 ≤ (I.first o).y → (I.first o).y ≠ (I.second o).y →
    (s.lastY o ≤ (I.first o).y ∧ ((I.first o).y, o) ∈ s.queue) ∨
    ((I.first o).y ≤ s.lastY o ∧ Seen I hist o (s.lastY o) ∧ (s.lastY o = (I.second o).y ∨ (s.lastY o, o) ∈ s.queue))

theorem hinv_init (I : Input) : HInv I [] (initState I) := by
  refine ⟨.nil, .nil, by simp, fun _ => le_rfl, by simp, ?_⟩
  intro o ho h0 hne
  left
  refine ⟨h0, ?_⟩
  simp only [initState, List.mem_map, List.mem_filter, List.mem_range]
  exact ⟨o, ⟨ho, by simpa using hne⟩, rfl⟩

theorem hinv_step {I : Input} (s : PState) (e : ℝ × Nat) (q : List (ℝ × Nat)) (hP : ∃ hist, HInv I hist s) (hq : popMax s.queue = some (e, q)) :
    (e.1 < s.lastY e.2 → ∃ hist, HInv I hist { s with queue := q }) ∧
    (¬ e.1 < s.lastY e.2 → ∀ y1 nbrs s', e.2 ∈ nbrs → Group I e.1 y1 nbrs → Effect I e.1 y1 nbrs s.out s'.out →
      (s'.lastY = open Classical in fun i => if i ∈ nbrs then y1 else s.lastY i) →
      (s'.queue = open Classical in q ++ (nbrs.filter fun i => decide (y1 < (I.second i).y)).map (fun i => (y1, i))) → ∃ hist, HInv I hist s') := by
  obtain ⟨hist, h⟩ := hP
  obtain ⟨hperm, hfirst⟩ := popMax_spec hq
  have hin : e ∈ s.queue := hperm.mem_iff.2 (by simp)
  have hmin : ∀ f ∈ s.queue, e.1 ≤ f.1 := fun f hf => by
    rcases hfirst f hf with h | h
    · exact h.le
    · exact h.1.le
  constructor
  · intro hlt
    refine ⟨hist, h.made, h.sorted, fun st hst f hf => h.after st hst f (hperm.mem_iff.2 (by simp [hf])), h.pos, h.nonneg, ?_⟩
    intro o ho h0 hne
    have keep : ∀ y, s.lastY o ≤ y → (y, o) ∈ s.queue → (y, o) ∈ q := fun y hy hm => by
      rcases List.mem_cons.1 (hperm.mem_iff.1 hm) with he | he
      · rw [← he] at hlt; exact absurd hlt (not_lt.2 hy)
      · exact he
    rcases h.seen o ho h0 hne with ⟨a, b⟩ | ⟨a, b, c⟩
    · exact .inl ⟨a, keep _ a b⟩
    · exact .inr ⟨a, b, c.imp id (keep _ le_rfl)⟩
  · intro hnl y1 nbrs s' hmem hg heff hlast hqueue
    have he0 : 0 ≤ e.1 := (h.pos e.2).trans (not_lt.1 hnl)
    refine ⟨hist ++ [⟨e.1, y1, nbrs⟩], .snoc hist s.out ⟨e.1, y1, nbrs⟩ s'.out h.made hg heff, ?_, ?_, ?_, ?_, ?_⟩
    · rw [List.pairwise_append]
      refine ⟨h.sorted, by simp, ?_⟩
      intro a ha b hb
      simp only [List.mem_singleton] at hb
      subst hb
      exact h.after a ha e hin
    · intro st hst f hf
      have hef : e.1 ≤ f.1 := by
        rw [hqueue] at hf
        rcases List.mem_append.1 hf with hf | hf
        · exact hmin f (hperm.mem_iff.2 (by simp [hf]))
        · obtain ⟨i, _, rfl⟩ := List.mem_map.1 hf
          exact hg.lt.le
      rcases List.mem_append.1 hst with hst | hst
      · exact (h.after st hst e hin).trans hef
      · simp only [List.mem_singleton] at hst
        subst hst
        exact hef
    · intro o
      rw [hlast]
      dsimp only
      split
      · exact he0.trans hg.lt.le
      · exact h.pos o
    · intro st hst
      rcases List.mem_append.1 hst with hst | hst
      · exact h.nonneg st hst
      · simp only [List.mem_singleton] at hst
        subst hst
        exact he0
    · intro o ho h0 hne
      rw [hlast, hqueue]
      dsimp only
      by_cases hm : o ∈ nbrs
      · rw [if_pos hm]
        right
        have hal := hg.alive o hm
        refine ⟨hal.2.1.trans hg.lt.le, ?_, ?_⟩
        · intro z z0 z1
          by_cases hz : e.1 ≤ z
          · exact ⟨⟨e.1, y1, nbrs⟩, by simp, hm, hz, z1⟩
          · -- it was seen before
            rcases h.seen o ho h0 hne with ⟨a, b⟩ | ⟨a, b, c⟩
            · exact absurd ((hmin _ b).trans z0) hz
            · have hle : e.1 ≤ s.lastY o := by
                rcases c with c | c
                · rw [c]; exact hal.2.2.le
                · exact hmin _ c
              exact b.mono _ z z0 ((not_le.1 hz).trans_le hle)
        · by_cases hlt : y1 < (I.second o).y
          · right
            simp only [List.mem_append, List.mem_map, List.mem_filter]
            exact .inr ⟨o, ⟨hm, by simpa using hlt⟩, rfl⟩
          · left
            exact le_antisymm (hg.le o hm) (not_lt.1 hlt)
      · rw [if_neg hm]
        have keep : ∀ y, (y, o) ∈ s.queue → (y, o) ∈ q := fun y hy => by
          rcases List.mem_cons.1 (hperm.mem_iff.1 hy) with he | he
          · rw [← he] at hmem; exact absurd hmem hm
          · exact he
        rcases h.seen o ho h0 hne with ⟨a, b⟩ | ⟨a, b, c⟩
        · exact .inl ⟨a, List.mem_append_left _ (keep _ b)⟩
        · exact .inr ⟨a, b.mono _, c.imp id fun c => List.mem_append_left _ (keep _ c)⟩

theorem empty_of_mainLoop {I : Input} : ∀ (n : ℕ) {s s' : PState}, mainLoop I n s = some s' → s'.queue = [] := by
  intro n
  induction n with
  | zero => intro s s' h; simp [mainLoop] at h
  | succ n ih =>
    intro s s' h
    simp only [mainLoop] at h
    split at h
    · rename_i hq
      rw [← Option.some.inj h]; exact popMax_none hq
    · split at h
      · simp at h
      · exact ih h

/-- **C73.** The layout is a succession of steps, at heights that do not decrease. Each step treats a group of neighbours (`Group`): a run of output
segments that are next to each other on the scan line just after the height `y0`; consecutive members are not definitely ordered before `y1`, and the run
is maximal: its ends are definitely ordered against their neighbours just after `y0`. Each step has the effect described in C69 to C71, on these members
only. Afterwards all paths are completed. Every height of every output segment that does not begin below zero is in a step of that segment. -/
theorem C73_groups {I : Input} (ok : I.Ok) : ∃ N out hist paths, (∀ n ≥ N, computePositions I n = some out) ∧
    History I hist paths ∧ (∀ o, out o = finish I o (paths o)) ∧
    (hist.Pairwise fun a b => a.y0 ≤ b.y0) ∧ (∀ st ∈ hist, 0 ≤ st.y0) ∧
    ∀ o < I.n, 0 ≤ (I.first o).y → ∀ z, (I.first o).y ≤ z → z < (I.second o).y → ∃ st ∈ hist, o ∈ st.nbrs ∧ st.y0 ≤ z ∧ z < st.y1 := by
  obtain ⟨N, s, h1, _, hist, h3⟩ := mainLoop_total ok (fun s => ∃ hist, HInv I hist s) (fun s e q _ h hq => hinv_step s e q h hq)
    _ (initState I) le_rfl (initState_inv ok) ⟨[], hinv_init I⟩
  refine ⟨N, fun o => finish I o (s.out o), hist, s.out, ?_, h3.made, fun _ => rfl, h3.sorted, h3.nonneg, ?_⟩
  · intro n hn
    rw [computePositions, h1 n hn]
    rfl
  · intro o ho h0 z z0 z1
    have hq := empty_of_mainLoop N (h1 N le_rfl)
    rcases h3.seen o ho h0 (z0.trans_lt z1).ne with ⟨_, b⟩ | ⟨_, b, c⟩
    · rw [hq] at b; simp at b
    · rw [hq] at c
      simp only [List.not_mem_nil, or_false] at c
      exact b z z0 (c ▸ z1)

theorem history_untouched {I : Input} {hist : List Step} {out : Nat → OPath} (h : History I hist out) {o : Nat} (ho : ∀ st ∈ hist, o ∉ st.nbrs) :
    out o = initPath I o := by
  induction h with
  | nil => rfl
  | snoc hist out st out' h g e ih =>
    have hn : o ∉ st.nbrs := ho st (by simp)
    have := ih fun s hs => ho s (by simp [hs])
    cases e with
    | nothing => exact this
    | strips _ _ ss hs ok _ h => rw [h o, if_neg hn]; exact this

theorem finish_initPath (I : Input) (o : Nat) (h : (I.first o).y < (I.second o).y) :
    finish I o (initPath I o) = ⟨I.first o, [copyEl I o ⟨I.first o, [], none⟩ (I.second o).y], some 0⟩ := by
  rw [initPath, if_neg h.ne, finish, if_pos (by exact h)]
  unfold copyEl
  split <;> rfl

/-- **C40.** Whatever the comparisons say, an output segment that does not reach below the height zero (heights grow downwards) is not touched by the
layout: its path is the copied original segment. Curves that are close to each other there are not put into order. -/
theorem C40_above_zero {I : Input} (ok : I.Ok) : ∃ N out, (∀ n ≥ N, computePositions I n = some out) ∧ ∀ o < I.n,
    (I.first o).y < (I.second o).y → (I.second o).y ≤ 0 → out o = ⟨I.first o, [copyEl I o ⟨I.first o, [], none⟩ (I.second o).y], some 0⟩ := by
  obtain ⟨N, out, hist, paths, h1, h2, h3, h4, h5, h6⟩ := C73_groups ok
  refine ⟨N, out, h1, ?_⟩
  intro o _ hlt hle
  rw [h3 o, history_untouched h2, finish_initPath I o hlt]
  intro st hst hm
  have hg : Group I st.y0 st.y1 st.nbrs := by
    clear h1 h3 h4 h5 h6
    induction h2 with
    | nil => simp at hst
    | snoc hist out s out' h g e ih =>
      rcases List.mem_append.1 hst with hst | hst
      · exact ih hst
      · simp only [List.mem_singleton] at hst
        subst hst
        exact g
  exact absurd ((h5 st hst).trans_lt (hg.alive o hm).2.2) (not_lt.2 hle)

end Verif.Pos
