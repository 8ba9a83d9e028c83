import Verif.Path.Merged

/-!
# Properties of the paths of contours (C74, C75)
-/

namespace Verif.Path
open Verif.Geom Verif.Topo Verif.Pos

variable {W : Type} {t : Topo ℝ W} {S : Src} {pos : Nat → OPath}

/-! ## Paths -/

/-- Where a path that begins at `p` ends. -/
def endPt (p : Pt) : List El → Pt
  | [] => p
  | e :: es => endPt e.stop es

theorem endPt_append (p : Pt) (l l' : List El) : endPt p (l ++ l') = endPt (endPt p l) l' := by
  induction l generalizing p with
  | nil => rfl
  | cons e l ih => exact ih _

theorem trace_append (p : Pt) (l l' : List El) : trace p (l ++ l') = trace p l ∪ trace (endPt p l) l' := by
  induction l generalizing p with
  | nil => simp [trace, endPt]
  | cons e l ih => simp only [List.cons_append, trace, ih, Set.union_assoc]; rfl

theorem stop_eq (p : OPath) : p.stop = endPt p.start p.els := by
  obtain ⟨s, els, c⟩ := p
  unfold OPath.stop
  dsimp only
  induction els generalizing s with
  | nil => rfl
  | cons e l ih =>
    rw [endPt, ← ih]
    cases l with
    | nil => rfl
    | cons f l => rw [List.getLast?_cons_cons]; rw [List.getLast?_eq_some_getLast (List.cons_ne_nil f l)]

theorem rev_stop (p : Pt) (e : El) : (El.rev p e).stop = p := by cases e <;> rfl

theorem rev_trace (p : Pt) (e : El) : (El.rev p e).trace e.stop = e.trace p := by
  have key : ∀ (f g : ℝ → Pt), (∀ u, f u = g (1 - u)) → {r | ∃ u : ℝ, 0 ≤ u ∧ u ≤ 1 ∧ r = f u} = {r | ∃ u : ℝ, 0 ≤ u ∧ u ≤ 1 ∧ r = g u} := by
    intro f g h
    ext r
    constructor
    · rintro ⟨u, u0, u1, rfl⟩; exact ⟨1 - u, by linarith, by linarith, h u⟩
    · rintro ⟨u, u0, u1, rfl⟩; exact ⟨1 - u, by linarith, by linarith, by rw [h]; congr 1; ring⟩
  cases e with
  | line q => exact key _ _ fun u => by ext <;> simp [El.stop, Pt.affine] <;> ring
  | quad a q => exact key _ _ fun u => by ext <;> simp [El.stop, Quad.eval, bez2] <;> ring
  | curve a b q => exact key _ _ fun u => by ext <;> simp [El.stop, Cubic.eval, bez3] <;> ring

theorem endPt_rev (p q : Pt) (l : List El) : endPt q (revEls p l) = if l = [] then q else p := by
  induction l generalizing p q with
  | nil => rfl
  | cons e l ih => simp [revEls, endPt_append, endPt, rev_stop]

theorem trace_rev (p : Pt) (l : List El) : trace (endPt p l) (revEls p l) = trace p l := by
  induction l generalizing p with
  | nil => rfl
  | cons e l ih =>
    rw [revEls, trace_append, endPt, ih, endPt_rev, trace, trace, trace, Set.union_empty, Set.union_comm]
    have : (if l = [] then endPt e.stop l else e.stop) = e.stop := by
      split_ifs with h
      · rw [h]; rfl
      · rfl
    rw [this, rev_trace]

/-- The layout of the segments is drawn from end to end (C39). -/
def Laid (t : Topo ℝ W) (pos : Nat → OPath) (s : Half) : Prop :=
  (pos s.idx).start = pt t ⟨s.idx, true⟩ ∧ (pos s.idx).stop = pt t ⟨s.idx, false⟩ ∧ (pos s.idx).els ≠ []

/-- The points drawn for a segment. -/
def drawn (pos : Nat → OPath) (s : Half) : Set Pt := trace (pos s.idx).start (pos s.idx).els

theorem oriented_ends {s : Half} (h : Laid t pos s) : endPt (pt t s.other) (oriented pos s) = pt t s ∧ trace (pt t s.other) (oriented pos s) = drawn pos s := by
  obtain ⟨h1, h2, h3⟩ := h
  rw [stop_eq] at h2
  obtain ⟨i, b⟩ := s
  unfold oriented drawn Half.other at *
  cases b
  · simp only [Bool.not_false, Bool.false_eq_true, if_false]
    exact ⟨by rw [← h1]; exact h2, by rw [← h1]⟩
  · simp only [Bool.not_true, if_true]
    rw [← h2]
    exact ⟨by rw [endPt_rev, if_neg h3]; exact h1, trace_rev _ _⟩

/-- The segments follow each other: each begins at the point where the one before it ends. -/
def Walk (t : Topo ℝ W) (a b : Half) : Prop := t.pointIdx b.other = t.pointIdx a

theorem Walk.pt {a b : Half} (h : Walk t a b) : pt t b.other = pt t a := by unfold Path.pt; rw [h]

theorem plain_path (l : List Half) (hl : ∀ s ∈ l, Laid t pos s) (hw : l.IsChain (Walk t)) (p : Pt) (hp : ∀ s ∈ l.head?, pt t s.other = p) :
    (∀ s ∈ l.getLast?, endPt p (l.flatMap (oriented pos)) = pt t s) ∧ trace p (l.flatMap (oriented pos)) = ⋃ s ∈ l, drawn pos s := by
  induction l generalizing p with
  | nil => simp [trace]
  | cons s l ih =>
    obtain ⟨e1, e2⟩ := oriented_ends (hl s (by simp))
    have hp' := hp s (by simp)
    rw [hp'] at e1 e2
    rw [List.isChain_cons] at hw
    obtain ⟨i1, i2⟩ := ih (fun s hs => hl s (by simp [hs])) hw.2 (pt t s) (fun b hb => (hw.1 b hb).pt)
    rw [List.flatMap_cons]
    refine ⟨?_, ?_⟩
    · intro z hz
      rw [endPt_append, e1]
      cases l with
      | nil => simp at hz; subst hz; rfl
      | cons b l => rw [List.getLast?_cons_cons] at hz; exact i1 z hz
    · rw [trace_append, e1, e2, i2]; simp

/-! ## C74 -/

/-- A closed contour, read from any of its segments. -/
theorem closed_rotate {segs A B : List Half} {s : Half} (hc : Contours.Closed t segs) (e : segs = A ++ s :: B) :
    (s :: B ++ A).IsChain (Walk t) ∧ ∀ z ∈ (s :: B ++ A).getLast?, Walk t z s := by
  obtain ⟨hne, hk⟩ := hc
  have hlen : segs.length = A.length + B.length + 1 := by rw [e]; simp; omega
  have get : ∀ i (hi : i < (s :: B ++ A).length), (s :: B ++ A)[i] = segs[(A.length + i) % segs.length]'(Nat.mod_lt _ (by omega)) := by
    intro i hi
    simp only [List.length_cons, List.length_append] at hi
    by_cases h : A.length + i < segs.length
    · have : (A.length + i) % segs.length = A.length + i := Nat.mod_eq_of_lt h
      simp only [this]
      rw [List.getElem_append_left (by simp; omega)]
      have : segs[A.length + i] = (A ++ s :: B)[A.length + i]'(by rw [← e]; exact h) := by simp only [e]
      rw [this, List.getElem_append_right (by omega)]
      simp
    · have : (A.length + i) % segs.length = A.length + i - segs.length := by
        rw [Nat.mod_eq_sub_mod (by omega), Nat.mod_eq_of_lt (by omega)]
      simp only [this]
      rw [List.getElem_append_right (by simp; omega)]
      have : segs[A.length + i - segs.length]'(by omega) = (A ++ s :: B)[A.length + i - segs.length]'(by rw [← e]; omega) := by simp only [e]
      rw [this, List.getElem_append_left (by omega)]
      congr 1
      simp; omega
  have hl : (s :: B ++ A).length = segs.length := by simp [hlen]; omega
  have step : ∀ i, ∀ (hi : i < (s :: B ++ A).length), Walk t ((s :: B ++ A)[i])
      ((s :: B ++ A)[(i + 1) % segs.length]'(by rw [hl]; exact Nat.mod_lt _ (by omega))) := by
    intro i hi
    have := hk ((A.length + i) % segs.length) (Nat.mod_lt _ (by omega))
    unfold Walk
    rw [get i hi, get _ _]
    have e1 : (A.length + (i + 1) % segs.length) % segs.length = ((A.length + i) % segs.length + 1) % segs.length := by
      rw [Nat.add_mod_mod, Nat.mod_add_mod, Nat.add_assoc]
    simp only [e1]
    exact this
  constructor
  · rw [List.isChain_iff_getElem]
    intro i hi
    have := step i (by omega)
    simp only [Nat.mod_eq_of_lt (show i + 1 < segs.length by omega)] at this
    exact this
  · intro z hz
    have h1 := step (segs.length - 1) (by omega)
    have e1 : (segs.length - 1 + 1) % segs.length = 0 := by rw [show segs.length - 1 + 1 = segs.length by omega, Nat.mod_self]
    simp only [e1] at h1
    rw [Option.mem_def, List.getLast?_eq_getElem?, List.getElem?_eq_some_iff] at hz
    obtain ⟨_, hz⟩ := hz
    simp only [hl] at hz
    rw [hz] at h1
    exact h1

/-- **C74.** The path of a closed contour begins at one of its points; it consists of what is drawn for maximal runs of joined segments, in the order of the contour
(`Runs`, `RunEls`). -/
theorem C74_runs {segs : List Half} (hl : ∀ s ∈ segs, Laid t pos s) {r : Pt × List El} (h : segsToPath t S pos segs = some r) :
    ∃ (A B : List Half) (s : Half), segs = A ++ s :: B ∧ canMerge t S pos s.other = none ∧ r.1 = pt t s.other ∧
      ∃ runs, Runs t S pos (s :: B ++ A) runs ∧ r.2 = (runs.map Prod.snd).flatten :=
  segsToPath_spec (fun s hs => (hl s hs).2.2) h

theorem RunEls.single {r : List Half} {es : List El} (h : RunEls t S pos r es) (hl : r.length = 1) : ∃ a, r = [a] ∧ es = oriented pos a := by
  cases h with
  | one a => exact ⟨a, rfl, rfl⟩
  | many a z m τ σ hτ hσ => simp at hl

/-- **C74.** If no two consecutive segments of the contour are joined, in particular if all input curves are straight, the path draws exactly the layout of the segments of the
contour, and it ends where it began. -/
theorem C74_closed {segs : List Half} (hc : Contours.Closed t segs) (hl : ∀ s ∈ segs, Laid t pos s)
    (hj : ∀ a ∈ segs, ∀ b ∈ segs, Walk t a b → ¬ Joined t S pos a b) {r : Pt × List El} (h : segsToPath t S pos segs = some r) :
    (∃ s ∈ segs, r.1 = pt t s) ∧ endPt r.1 r.2 = r.1 ∧ trace r.1 r.2 = ⋃ s ∈ segs, drawn pos s := by
  obtain ⟨A, B, s, e, hs, hr, runs, ⟨h1, h2, -⟩, h4⟩ := C74_runs hl h
  obtain ⟨w1, w2⟩ := closed_rotate hc e
  have hmem : ∀ x, x ∈ s :: B ++ A ↔ x ∈ segs := by intro x; rw [e]; simp; tauto
  have key : ∀ runs : List (List Half × List El), ((runs.map Prod.fst).flatten).IsChain (Walk t) → (∀ x ∈ (runs.map Prod.fst).flatten, x ∈ segs) →
      (∀ r ∈ runs, RunEls t S pos r.1 r.2 ∧ r.1.IsChain (Joined t S pos)) → (runs.map Prod.snd).flatten = ((runs.map Prod.fst).flatten).flatMap (oriented pos) := by
    intro runs
    induction runs with
    | nil => intros; rfl
    | cons ρ runs ih =>
      intro k1 k2 k3
      simp only [List.map_cons, List.flatten_cons] at k1 k2 ⊢
      obtain ⟨a, ha, he⟩ : ∃ a, ρ.1 = [a] ∧ ρ.2 = oriented pos a := by
        obtain ⟨q1, q2⟩ := k3 ρ (by simp)
        apply q1.single
        rcases hρ : ρ.1 with _ | ⟨x, _ | ⟨y, l⟩⟩
        · exact absurd hρ q1.ne
        · rfl
        · exfalso
          rw [hρ] at q2 k1 k2
          simp only [List.cons_append, List.isChain_cons_cons] at q2 k1
          exact hj x (k2 x (by simp)) y (k2 y (by simp)) k1.1 q2.1
      rw [ha] at k1 k2 ⊢
      rw [he, ih (List.IsChain.tail k1) (fun x hx => k2 x (by simp only [List.mem_append]; exact Or.inr hx)) (fun r hr => k3 r (by simp [hr]))]
      simp
  have hels : r.2 = (s :: B ++ A).flatMap (oriented pos) := by
    rw [h4, key runs (by rw [h1]; exact w1) (by rw [h1]; exact fun x hx => (hmem x).1 hx) h2, h1]
  obtain ⟨p1, p2⟩ := plain_path (s :: B ++ A) (fun x hx => hl x ((hmem x).1 hx)) w1 r.1 (by intro x hx; simp at hx; subst hx; exact hr.symm)
  rw [← hels] at p1 p2
  obtain ⟨z, hz⟩ : ∃ z, z ∈ (s :: B ++ A).getLast? := by
    rw [List.getLast?_eq_some_getLast (by simp)]; exact ⟨_, rfl⟩
  have e1 := p1 z hz
  have e2 := (w2 z hz).pt
  refine ⟨⟨z, (hmem z).1 (List.mem_of_getLast? hz), by rw [hr, e2]⟩, by rw [e1, hr, e2], ?_⟩
  rw [p2]
  ext P
  simp only [Set.mem_iUnion, hmem]

end Verif.Path
