import Verif.Path.Props

/-!
# Runs of joined segments draw the parts of the input curve (C74, C75)
-/

namespace Verif.Path
open Verif.Geom Verif.Topo Verif.Pos

variable {W : Type} {t : Topo ℝ W} {S : Src} {pos : Nat → OPath}

/-- **C74.** The search for a segment to start with succeeds: if, whenever the beginning of a segment of the contour could be merged, the segment before it is the
preceding piece of the same input curve, then there is a segment that cannot be merged into the previous one. -/
theorem C74_start {segs : List Half} (hc : Contours.Closed t segs) (hp : ∀ s ∈ segs, (S.split (t.origSeg s.idx)).1 < (S.split (t.origSeg s.idx)).2)
    (hf : ∀ a ∈ segs, ∀ b ∈ segs, Walk t a b → canMerge t S pos b.other ≠ none → Follows t S a b) : ∃ r, segsToPath t S pos segs = some r := by
  classical
  obtain ⟨hne, hk⟩ := hc
  by_cases hs : ∃ s ∈ segs, canMerge t S pos s.other = none
  · obtain ⟨s, hs, h0⟩ := hs
    unfold segsToPath
    cases hk : segs.findIdx? fun s => decide (canMerge t S pos s.other = none) with
    | none => rw [List.findIdx?_eq_none_iff] at hk; have := hk s hs; simp [h0] at this
    | some k =>
      obtain ⟨hlt, -, -⟩ := List.findIdx?_eq_some_iff_getElem.1 hk
      simp only [List.getElem?_eq_getElem hlt]
      exact ⟨_, rfl⟩
  · exfalso
    push Not at hs
    have next : ∀ a ∈ segs, ∃ b ∈ segs, Follows t S a b := by
      intro a ha
      obtain ⟨k, hk', rfl⟩ := List.getElem_of_mem ha
      exact ⟨_, List.getElem_mem (Nat.mod_lt _ (by omega)), hf _ ha _ (List.getElem_mem (Nat.mod_lt _ (by omega))) (hk k hk') (hs _ (List.getElem_mem _))⟩
    have prev : ∀ b ∈ segs, ∃ a ∈ segs, Follows t S a b := by
      intro b hb
      obtain ⟨k, hk', rfl⟩ := List.getElem_of_mem hb
      have hlt : (k + (segs.length - 1)) % segs.length < segs.length := Nat.mod_lt _ (by omega)
      have e : ((k + (segs.length - 1)) % segs.length + 1) % segs.length = k := by
        rw [Nat.mod_add_mod, show k + (segs.length - 1) + 1 = k + segs.length by omega, Nat.add_mod_right, Nat.mod_eq_of_lt hk']
      have := hk _ hlt
      simp only [e] at this
      exact ⟨_, List.getElem_mem hlt, hf _ (List.getElem_mem hlt) _ hb this (hs _ hb)⟩
    obtain ⟨x, hx, hmax⟩ := Finset.exists_max_image segs.toFinset (fun s => (S.split (t.origSeg s.idx)).1) (by
      obtain ⟨y, l, rfl⟩ := List.exists_cons_of_ne_nil hne; exact ⟨y, by simp⟩)
    rw [List.mem_toFinset] at hx
    by_cases hfw : Forward t S x
    · obtain ⟨b, hb, -, hbf⟩ := next x hx
      rcases hbf with ⟨-, -, e⟩ | ⟨h, -, -⟩
      · have := hmax b (by simpa using hb)
        have := hp x hx
        linarith
      · exact h hfw
    · obtain ⟨a, ha, -, haf⟩ := prev x hx
      rcases haf with ⟨-, h, -⟩ | ⟨-, -, e⟩
      · exact hfw h
      · have := hmax a (by simpa using ha)
        have := hp x hx
        linarith

/-! ## C75 -/

/-- The heights of the output segment are heights of its original segment. -/
def Within (t : Topo ℝ W) (S : Src) (s : Half) : Prop :=
  (S.seg (t.origSeg s.idx)).toCubic.Spans (pt t ⟨s.idx, true⟩).y (pt t ⟨s.idx, false⟩).y

/-- The parameters of the input curve at the beginning and at the end of a segment, in the direction of the walk. -/
noncomputable def vs (t : Topo ℝ W) (S : Src) (s : Half) : ℝ := vAt S (t.origSeg s.idx) (pt t s.other).y
noncomputable def ve (t : Topo ℝ W) (S : Src) (s : Half) : ℝ := vAt S (t.origSeg s.idx) (pt t s).y

theorem origPart_eq {s : Half} (hp : S.Piece (t.origSeg s.idx)) (hw : Within t S s) :
    (S.input (t.origSeg s.idx)).eval '' Set.uIcc (vs t S s) (ve t S s) = origPart t S s := by
  have := hp.image hw hw.2.1
  obtain ⟨i, b⟩ := s
  unfold vs ve Half.other origPart
  cases b
  · exact this
  · rw [Set.uIcc_comm]; exact this

theorem solveT_start {o : Nat} (hp : S.Piece o) : solveT (S.seg o).toCubic (S.seg o).start.y = 0 :=
  hp.mono.solveT_unique le_rfl zero_le_one (by rw [Cubic.eval_zero, (C42_to_cubic (S.seg o)).2.1])
theorem solveT_stop {o : Nat} (hp : S.Piece o) : solveT (S.seg o).toCubic (S.seg o).stop.y = 1 :=
  hp.mono.solveT_unique zero_le_one le_rfl (by rw [Cubic.eval_one, (C42_to_cubic (S.seg o)).2.2])

theorem vAt_start {o : Nat} (hp : S.Piece o) : vAt S o (S.orientedStart o).y = (S.split o).1 := by
  unfold vAt Src.orientedStart
  by_cases h : S.orient o = true
  · rw [if_pos h, solveT_start hp, hp.inputT le_rfl zero_le_one]; simp [raw, h]
  · rw [if_neg h, solveT_stop hp, hp.inputT zero_le_one le_rfl]; simp [raw, h]
theorem vAt_end {o : Nat} (hp : S.Piece o) : vAt S o (S.orientedEnd o).y = (S.split o).2 := by
  unfold vAt Src.orientedEnd
  by_cases h : S.orient o = true
  · rw [if_pos h, solveT_stop hp, hp.inputT zero_le_one le_rfl]; simp [raw, h]
  · rw [if_neg h, solveT_start hp, hp.inputT le_rfl zero_le_one]; simp [raw, h]

theorem other_idx (s : Half) : s.other.idx = s.idx := rfl
theorem other_other (s : Half) : s.other.other = s := by simp [Half.other]

/-- At a joint the parameters agree. -/
theorem joint {a b : Half} (ha : S.Piece (t.origSeg a.idx)) (hb : S.Piece (t.origSeg b.idx)) (hj : Joined t S pos a b) (hf : Follows t S a b) :
    ve t S a = vs t S b := by
  obtain ⟨τ, hτ⟩ := Option.ne_none_iff_exists'.1 hj.1
  obtain ⟨σ, hσ⟩ := Option.ne_none_iff_exists'.1 hj.2
  obtain ⟨-, -, -, h1, -⟩ := canMerge_iff.1 hτ
  obtain ⟨-, -, -, h2, -⟩ := canMerge_iff.1 hσ
  rw [other_idx] at h2
  unfold ve vs
  have key : b.other.first = S.orient (t.origSeg b.idx) ↔ Forward t S b := by
    unfold Forward Half.other; cases b.first <;> cases S.orient (t.origSeg b.idx) <;> simp
  rcases hf.2 with ⟨f1, f2, e⟩ | ⟨f1, f2, e⟩
  · rw [if_neg f1] at h1
    rw [if_pos (key.2 f2)] at h2
    rw [h1.2, h2.2, vAt_end ha, vAt_start hb, e]
  · rw [if_pos (not_not.1 f1)] at h1
    rw [if_neg (fun h => f2 (key.1 h))] at h2
    rw [h1.2, h2.2, vAt_start ha, vAt_end hb, e]

theorem raw_mono {o : Nat} (hp : S.Piece o) {u v : ℝ} (h : u ≤ v) : if S.orient o then raw S o u ≤ raw S o v else raw S o v ≤ raw S o u := by
  have := mul_le_mul_of_nonneg_right h (sub_nonneg.2 hp.le)
  unfold raw
  split_ifs <;> linarith

/-- The parameter increases or decreases, depending on the direction. -/
theorem direction {s : Half} (hp : S.Piece (t.origSeg s.idx)) (hw : Within t S s) :
    (Forward t S s → vs t S s ≤ ve t S s) ∧ (¬ Forward t S s → ve t S s ≤ vs t S s) := by
  obtain ⟨h0, h1, h2⟩ := hw
  have key := raw_mono hp (hp.mono.solveT_le h0 h1 h2)
  rw [← hp.vAt_eq h0 (h1.trans h2), ← hp.vAt_eq (h0.trans h1) h2] at key
  obtain ⟨i, b⟩ := s
  unfold Forward vs ve Half.other
  simp only at key ⊢
  cases b <;> cases ho : S.orient (t.origSeg i) <;> simp [ho] at key ⊢ <;> exact key

theorem chain_union {α : Type} (f g : α → ℝ) : ∀ (l : List α) (a : α), (a :: l).IsChain (fun x y => g x = f y) → (∀ x ∈ a :: l, f x ≤ g x) →
    ∀ z ∈ (a :: l).getLast?, f a ≤ g z ∧ (⋃ x ∈ a :: l, Set.Icc (f x) (g x)) = Set.Icc (f a) (g z)
  | [], a, _, h2, z, hz => by simp at hz; subst hz; exact ⟨h2 a (by simp), by simp⟩
  | b :: l, a, h1, h2, z, hz => by
    rw [List.isChain_cons_cons] at h1
    rw [List.getLast?_cons_cons] at hz
    obtain ⟨i1, i2⟩ := chain_union f g l b h1.2 (fun x hx => h2 x (List.mem_cons_of_mem _ hx)) z hz
    have ha := h2 a (by simp)
    refine ⟨by rw [h1.1] at ha; exact ha.trans i1, ?_⟩
    have : (⋃ x ∈ a :: b :: l, Set.Icc (f x) (g x)) = Set.Icc (f a) (g a) ∪ ⋃ x ∈ b :: l, Set.Icc (f x) (g x) := by
      ext v; simp
    rw [this, i2, h1.1, Set.Icc_union_Icc_eq_Icc (by rw [← h1.1]; exact ha) i1]

/-- The pieces of a run fill the interval of parameters between its ends. -/
theorem run_union {a z : Half} {m : List Half} (hP : ∀ s ∈ a :: m ++ [z], S.Piece (t.origSeg s.idx) ∧ Within t S s)
    (hj : (a :: m ++ [z]).IsChain (Joined t S pos)) (hf : (a :: m ++ [z]).IsChain (Follows t S)) :
    (⋃ s ∈ a :: m ++ [z], Set.uIcc (vs t S s) (ve t S s)) = Set.uIcc (vs t S a) (ve t S z) := by
  have hmatch : ∀ l : List Half, (∀ s ∈ l, S.Piece (t.origSeg s.idx)) → l.IsChain (Joined t S pos) → l.IsChain (Follows t S) →
      l.IsChain (fun x y => ve t S x = vs t S y) := by
    intro l
    induction l with
    | nil => intros; simp
    | cons x l ih =>
      cases l with
      | nil => intros; simp
      | cons y l =>
        intro k1 k2 k3
        rw [List.isChain_cons_cons] at k2 k3 ⊢
        exact ⟨joint (k1 x (by simp)) (k1 y (by simp)) k2.1 k3.1, ih (fun s hs => k1 s (List.mem_cons_of_mem _ hs)) k2.2 k3.2⟩
  have hm := hmatch _ (fun s hs => (hP s hs).1) hj hf
  have hdir : ∀ (l : List Half) (x : Half), (x :: l).IsChain (Follows t S) → ∀ y ∈ x :: l, (Forward t S y ↔ Forward t S x) := by
    intro l
    induction l with
    | nil => intro x _ y hy; simp at hy; rw [hy]
    | cons w l ih =>
      intro x h y hy
      rw [List.isChain_cons_cons] at h
      have e : Forward t S w ↔ Forward t S x := by
        rcases h.1.2 with ⟨h1, h2, -⟩ | ⟨h1, h2, -⟩ <;> tauto
      rcases List.mem_cons.1 hy with rfl | hy
      · rfl
      · exact (ih w h.2 y hy).trans e
  have hd := hdir (m ++ [z]) a hf
  have hz : z ∈ (a :: (m ++ [z])).getLast? := by rw [← List.cons_append, List.getLast?_concat]; rfl
  by_cases hfw : Forward t S a
  · have hle : ∀ s ∈ a :: (m ++ [z]), vs t S s ≤ ve t S s := fun s hs => (direction (hP s hs).1 (hP s hs).2).1 ((hd s hs).2 hfw)
    obtain ⟨h1, h2⟩ := chain_union _ _ (m ++ [z]) a hm hle z hz
    rw [Set.uIcc_of_le h1, ← h2]
    ext v
    simp only [Set.mem_iUnion, List.cons_append]
    constructor <;> rintro ⟨s, hs, hv⟩ <;> refine ⟨s, hs, ?_⟩
    · rwa [Set.uIcc_of_le (hle s hs)] at hv
    · rwa [Set.uIcc_of_le (hle s hs)]
  · have hle : ∀ s ∈ a :: (m ++ [z]), ve t S s ≤ vs t S s := fun s hs => (direction (hP s hs).1 (hP s hs).2).2 (fun h => hfw ((hd s hs).1 h))
    obtain ⟨h1, h2⟩ := chain_union (fun s => -vs t S s) (fun s => -ve t S s) (m ++ [z]) a (by
      refine List.IsChain.imp ?_ hm
      intro x y h
      rw [h]) (fun s hs => neg_le_neg (hle s hs)) z hz
    have h1' : ve t S z ≤ vs t S a := by linarith
    rw [Set.uIcc_of_ge h1']
    ext v
    have := Set.ext_iff.1 h2 (-v)
    simp only [Set.mem_iUnion, List.cons_append, Set.mem_Icc, neg_le_neg_iff] at this ⊢
    rw [and_comm, ← this]
    constructor <;> rintro ⟨s, hs, hv⟩ <;> refine ⟨s, hs, ?_⟩
    · rw [Set.uIcc_of_ge (hle s hs)] at hv; exact ⟨hv.2, hv.1⟩
    · rw [Set.uIcc_of_ge (hle s hs)]; exact ⟨hv.2, hv.1⟩

theorem run_input {l : List Half} {a : Half} (hf : (a :: l).IsChain (Follows t S)) : ∀ s ∈ a :: l, S.input (t.origSeg s.idx) = S.input (t.origSeg a.idx) := by
  induction l generalizing a with
  | nil => intro s hs; simp at hs; rw [hs]
  | cons b l ih =>
    intro s hs
    rw [List.isChain_cons_cons] at hf
    rcases List.mem_cons.1 hs with rfl | hs
    · rfl
    · rw [ih hf.2 s hs, hf.1.1]

/-- **C75.** What replaces a run of joined pieces of an input curve. Suppose the segments of the run are consecutive pieces of the same input curve and the layout of the first and of
the last one is a single element. Then a single element is drawn for the run; the piece of the input curve that it was made of draws exactly the parts of the original segments
between the heights of the ends of the output segments. -/
theorem C75_input {a z : Half} {m : List Half} {es : List El} (hr : RunEls t S pos (a :: m ++ [z]) es)
    (hP : ∀ s ∈ a :: m ++ [z], S.Piece (t.origSeg s.idx) ∧ Within t S s) (hj : (a :: m ++ [z]).IsChain (Joined t S pos))
    (hf : (a :: m ++ [z]).IsChain (Follows t S)) (ha : (pos a.idx).els.length = 1) (hz : (pos z.idx).els.length = 1) :
    ∃ p : PSeg, es = [p.el] ∧ p.eval '' Set.Icc 0 1 = ⋃ s ∈ a :: m ++ [z], origPart t S s := by
  obtain ⟨τ, σ, hτ, hσ, rfl⟩ : ∃ τ σ, canMerge t S pos a = some τ ∧ canMerge t S pos z.other = some σ ∧
      es = (oriented pos a).dropLast ++ [(subInput (S.input (t.origSeg z.idx)) τ σ).el] ++ (oriented pos z).tail := by
    generalize hl : a :: m ++ [z] = l at hr
    cases hr with
    | one x => have := congrArg List.length hl; simp at this
    | many a' z' m' τ σ hτ hσ =>
      simp only [List.cons_append, List.cons.injEq] at hl
      obtain ⟨rfl, hl⟩ := hl
      obtain ⟨rfl, hl⟩ := List.append_inj' hl rfl
      simp at hl
      subst hl
      exact ⟨τ, σ, hτ, hσ, rfl⟩
  refine ⟨subInput (S.input (t.origSeg z.idx)) τ σ, ?_, ?_⟩
  · rw [List.eq_nil_of_length_eq_zero (l := (oriented pos a).dropLast) (by rw [List.length_dropLast, oriented_length, ha]),
      List.eq_nil_of_length_eq_zero (l := (oriented pos z).tail) (by rw [List.length_tail, oriented_length, hz])]
    simp
  · have e1 : τ = vs t S a := (canMerge_iff.1 hτ).2.2.2.2
    have e2 : σ = ve t S z := by
      have := (canMerge_iff.1 hσ).2.2.2.2
      rw [other_other] at this; exact this
    have hin := run_input (l := m ++ [z]) hf
    have hinz := hin z (by simp)
    have : (subInput (S.input (t.origSeg z.idx)) τ σ).eval '' Set.Icc 0 1 = (S.input (t.origSeg a.idx)).eval '' Set.uIcc τ σ := by
      rw [hinz, ← segment_eq_uIcc, segment_eq_image, Set.image_image]
      apply Set.image_congr
      intro u _
      rw [subInput_eval]
      congr 1
      simp only [smul_eq_mul]; ring
    rw [this, e1, e2, ← run_union hP hj hf, Set.image_iUnion]
    simp only [Set.image_iUnion]
    refine Set.iUnion_congr fun s => Set.iUnion_congr fun hs => ?_
    rw [← hin s hs]
    exact origPart_eq (hP s hs).1 (hP s hs).2

/-- Every point of one set is at the height of a point of the other, at a distance of at most `d`. -/
def Near (d : ℝ) (A B : Set Pt) : Prop := (∀ P ∈ A, ∃ Q ∈ B, Q.y = P.y ∧ |P.x - Q.x| ≤ d) ∧ (∀ Q ∈ B, ∃ P ∈ A, Q.y = P.y ∧ |P.x - Q.x| ≤ d)

/-- **C75.** The element is drawn from a point `p` at the height at which the first segment of the run begins, which may be to the left or right of the original. So every point
that it draws is at the height of a point of the parts of the original segments, at most as far from it as `p` is from the original, and vice versa. -/
theorem C75_merged {a z : Half} {m : List Half} {es : List El} (hr : RunEls t S pos (a :: m ++ [z]) es)
    (hP : ∀ s ∈ a :: m ++ [z], S.Piece (t.origSeg s.idx) ∧ Within t S s) (hj : (a :: m ++ [z]).IsChain (Joined t S pos))
    (hf : (a :: m ++ [z]).IsChain (Follows t S)) (ha : (pos a.idx).els.length = 1) (hz : (pos z.idx).els.length = 1)
    {p : Pt} (hpen : p.y = (pt t a.other).y) :
    Near |p.x - solveX (S.seg (t.origSeg a.idx)).toCubic p.y| (trace p es) (⋃ s ∈ a :: m ++ [z], origPart t S s) ∧
    endPt p es = ⟨solveX (S.seg (t.origSeg z.idx)).toCubic (pt t z).y, (pt t z).y⟩ := by
  obtain ⟨τ, σ, hτ, hσ, e⟩ : ∃ τ σ, canMerge t S pos a = some τ ∧ canMerge t S pos z.other = some σ ∧
      es = [(subInput (S.input (t.origSeg z.idx)) τ σ).el] := by
    generalize hl : a :: m ++ [z] = l at hr
    cases hr with
    | one x => have := congrArg List.length hl; simp at this
    | many a' z' m' τ σ hτ hσ =>
      simp only [List.cons_append, List.cons.injEq] at hl
      obtain ⟨rfl, hl⟩ := hl
      obtain ⟨rfl, hl⟩ := List.append_inj' hl rfl
      simp at hl
      subst hl
      refine ⟨τ, σ, hτ, hσ, ?_⟩
      rw [List.eq_nil_of_length_eq_zero (l := (oriented pos a).dropLast) (by rw [List.length_dropLast, oriented_length, ha]),
        List.eq_nil_of_length_eq_zero (l := (oriented pos z).tail) (by rw [List.length_tail, oriented_length, hz])]
      simp
  obtain ⟨p', hp', himg⟩ := C75_input hr hP hj hf ha hz
  have e1 : τ = vs t S a := (canMerge_iff.1 hτ).2.2.2.2
  have e2 : σ = ve t S z := by
    have := (canMerge_iff.1 hσ).2.2.2.2
    rw [other_other] at this; exact this
  have hin := run_input (l := m ++ [z]) hf
  have hinz := hin z (by simp)
  obtain ⟨q, hp⟩ : ∃ q, q = subInput (S.input (t.origSeg z.idx)) τ σ := ⟨_, rfl⟩
  have hpe : ∀ u, q.eval u = (S.input (t.origSeg z.idx)).eval (τ + u * (σ - τ)) := fun u => by rw [hp, subInput_eval]
  have himg' : q.eval '' Set.Icc 0 1 = ⋃ s ∈ a :: m ++ [z], origPart t S s := by
    have : (S.input (t.origSeg a.idx)).eval '' Set.uIcc τ σ = q.eval '' Set.Icc 0 1 := by
      rw [← segment_eq_uIcc, segment_eq_image, Set.image_image]
      apply Set.image_congr
      intro u _
      rw [hpe, ← hinz]
      congr 1
      simp only [smul_eq_mul]; ring
    rw [← this, e1, e2, ← run_union hP hj hf, Set.image_iUnion]
    simp only [Set.image_iUnion]
    refine Set.iUnion_congr fun s => Set.iUnion_congr fun hs => ?_
    rw [← hin s hs]
    exact origPart_eq (hP s hs).1 (hP s hs).2
  have bnd : ∀ s ∈ a :: m ++ [z], (S.seg (t.origSeg s.idx)).toCubic.p0.y ≤ (pt t s).y ∧ (pt t s).y ≤ (S.seg (t.origSeg s.idx)).toCubic.p3.y ∧
      (S.seg (t.origSeg s.idx)).toCubic.p0.y ≤ (pt t s.other).y ∧ (pt t s.other).y ≤ (S.seg (t.origSeg s.idx)).toCubic.p3.y := by
    intro s hs
    obtain ⟨h0, h1, h2⟩ := (hP s hs).2
    obtain ⟨i, b⟩ := s
    cases b
    · exact ⟨h0.trans h1, h2, h0, h1.trans h2⟩
    · exact ⟨h0, h1.trans h2, h0.trans h1, h2⟩
  have ba := bnd a (by simp)
  have bz := bnd z (by simp)
  have p0 : q.eval 0 = ⟨solveX (S.seg (t.origSeg a.idx)).toCubic (pt t a.other).y, (pt t a.other).y⟩ := by
    rw [hpe, zero_mul, add_zero, e1, hinz]; exact (hP a (by simp)).1.vAt_eval ba.2.2.1 ba.2.2.2
  have p1 : q.eval 1 = ⟨solveX (S.seg (t.origSeg z.idx)).toCubic (pt t z).y, (pt t z).y⟩ := by
    rw [hpe, one_mul, add_sub_cancel, e2]; exact (hP z (by simp)).1.vAt_eval bz.1 bz.2.1
  have wbound : ∀ w X : ℝ, 0 ≤ w → w ≤ 1 → |w * X| ≤ |X| := by
    intro w X h0 h1
    rw [abs_mul, abs_of_nonneg h0]
    exact mul_le_of_le_one_left (abs_nonneg _) h1
  have htr : trace p es = q.el.trace p := by rw [e, ← hp, trace, trace, Set.union_empty]
  rw [← hpen] at p0
  refine ⟨⟨?_, ?_⟩, ?_⟩
  · intro P hP'
    rw [htr] at hP'
    obtain ⟨u, w, u0, u1, w0, w1, hx, hy⟩ := el_trace q _ P hP'
    have hmem : q.eval u ∈ ⋃ s ∈ a :: m ++ [z], origPart t S s := by rw [← himg']; exact ⟨u, ⟨u0, u1⟩, rfl⟩
    rw [p0] at hx hy
    refine ⟨_, hmem, by rw [hy]; simp, ?_⟩
    rw [hx, add_sub_cancel_left]
    exact wbound _ _ w0 w1
  · intro Q hQ
    rw [← himg'] at hQ
    obtain ⟨u, ⟨u0, u1⟩, rfl⟩ := hQ
    obtain ⟨R, hR, w, w0, w1, hx, hy⟩ := el_trace_mem q p u0 u1
    rw [p0] at hx hy
    refine ⟨R, by rw [htr]; exact hR, by rw [hy]; simp, ?_⟩
    rw [hx, add_sub_cancel_left]
    exact wbound _ _ w0 w1
  · rw [e, ← hp, endPt, endPt, el_stop, p1]

/-! ## The whole path -/

theorem Near.mono {d d' : ℝ} {A B : Set Pt} (h : Near d A B) (hd : d ≤ d') : Near d' A B := by
  refine ⟨fun P hP => ?_, fun Q hQ => ?_⟩
  · obtain ⟨Q, h1, h2, h3⟩ := h.1 P hP; exact ⟨Q, h1, h2, h3.trans hd⟩
  · obtain ⟨P, h1, h2, h3⟩ := h.2 Q hQ; exact ⟨P, h1, h2, h3.trans hd⟩

theorem Near.union {d : ℝ} {A B A' B' : Set Pt} (h : Near d A B) (h' : Near d A' B') : Near d (A ∪ A') (B ∪ B') := by
  refine ⟨?_, ?_⟩
  · rintro P (hP | hP)
    · obtain ⟨Q, h1, h2⟩ := h.1 P hP; exact ⟨Q, Or.inl h1, h2⟩
    · obtain ⟨Q, h1, h2⟩ := h'.1 P hP; exact ⟨Q, Or.inr h1, h2⟩
  · rintro P (hP | hP)
    · obtain ⟨Q, h1, h2⟩ := h.2 P hP; exact ⟨Q, Or.inl h1, h2⟩
    · obtain ⟨Q, h1, h2⟩ := h'.2 P hP; exact ⟨Q, Or.inr h1, h2⟩

theorem Near.refl {d : ℝ} (hd : 0 ≤ d) (A : Set Pt) : Near d A A :=
  ⟨fun P hP => ⟨P, hP, rfl, by simpa using hd⟩, fun P hP => ⟨P, hP, rfl, by simpa using hd⟩⟩

/-- An element drawn from a point beside the one where it should begin. -/
theorem el_shift (e : El) {p q : Pt} (h : p.y = q.y) : Near |p.x - q.x| (e.trace p) (e.trace q) := by
  have wbound : ∀ w X : ℝ, 0 ≤ w → w ≤ 1 → |w * X| ≤ |X| := by
    intro w X h0 h1
    rw [abs_mul, abs_of_nonneg h0]
    exact mul_le_of_le_one_left (abs_nonneg _) h1
  have key : ∀ (f : Pt → ℝ → Pt) (w : ℝ → ℝ), (∀ u, 0 ≤ u → u ≤ 1 → 0 ≤ w u ∧ w u ≤ 1) → (∀ u, (f p u).x - (f q u).x = w u * (p.x - q.x)) →
      (∀ u, (f p u).y = (f q u).y) → Near |p.x - q.x| {r | ∃ u : ℝ, 0 ≤ u ∧ u ≤ 1 ∧ r = f p u} {r | ∃ u : ℝ, 0 ≤ u ∧ u ≤ 1 ∧ r = f q u} := by
    intro f w hw hx hy
    refine ⟨?_, ?_⟩ <;> rintro P ⟨u, u0, u1, rfl⟩
    · exact ⟨f q u, ⟨u, u0, u1, rfl⟩, (hy u).symm, by rw [hx]; exact wbound _ _ (hw u u0 u1).1 (hw u u0 u1).2⟩
    · exact ⟨f p u, ⟨u, u0, u1, rfl⟩, (hy u).symm, by rw [hx]; exact wbound _ _ (hw u u0 u1).1 (hw u u0 u1).2⟩
  cases e with
  | line a =>
    refine key (fun p u => p.affine a u) (fun u => 1 - u) (fun u h0 h1 => ⟨by linarith, by linarith⟩) ?_ ?_
    · intro u; simp [Pt.affine]; ring
    · intro u; simp [Pt.affine, h]
  | quad a b =>
    refine key (fun p u => (Quad.mk p a b).eval u) (fun u => (1 - u) ^ 2) (fun u h0 h1 => ⟨by positivity, pow_le_one₀ (by linarith) (by linarith)⟩) ?_ ?_
    · intro u; simp [Quad.eval, bez2]; ring
    · intro u; simp [Quad.eval, bez2, h]
  | curve a b c =>
    refine key (fun p u => (Cubic.mk p a b c).eval u) (fun u => (1 - u) ^ 3)
      (fun u h0 h1 => ⟨pow_nonneg (by linarith) 3, pow_le_one₀ (by linarith) (by linarith)⟩) ?_ ?_
    · intro u; simp [Cubic.eval, bez3]; ring
    · intro u; simp [Cubic.eval, bez3, h]

theorem trace_shift {l : List El} (hl : l ≠ []) {p q : Pt} (h : p.y = q.y) : Near |p.x - q.x| (trace p l) (trace q l) ∧ endPt p l = endPt q l := by
  obtain ⟨e, l, rfl⟩ := List.exists_cons_of_ne_nil hl
  exact ⟨(el_shift e h).union (Near.refl (abs_nonneg _) _), rfl⟩

/-- What should be drawn for a run: the layout of a single segment; for more, the parts of the original segments. -/
def runArea (t : Topo ℝ W) (S : Src) (pos : Nat → OPath) : List Half → Set Pt
  | [a] => drawn pos a
  | l => ⋃ s ∈ l, origPart t S s

theorem Near.iUnion_cons {d : ℝ} {p : Pt} {ρ : List Half × List El} {runs : List (List Half × List El)}
    (h1 : Near d (trace p ρ.2) (runArea t S pos ρ.1)) (h2 : Near d (trace (endPt p ρ.2) (runs.map Prod.snd).flatten) (⋃ r ∈ runs, runArea t S pos r.1)) :
    Near d (trace p ((ρ :: runs).map Prod.snd).flatten) (⋃ r ∈ ρ :: runs, runArea t S pos r.1) := by
  have e : (⋃ r ∈ ρ :: runs, runArea t S pos r.1) = runArea t S pos ρ.1 ∪ ⋃ r ∈ runs, runArea t S pos r.1 := by ext v; simp
  rw [List.map_cons, List.flatten_cons, trace_append, e]
  exact h1.union h2

theorem RunEls.many_of {r : List Half} {es : List El} (h : RunEls t S pos r es) (h1 : ∀ a, r ≠ [a]) : ∃ a m z, r = a :: m ++ [z] := by
  cases h with
  | one a => exact absurd rfl (h1 a)
  | many a z m τ σ hτ hσ => exact ⟨a, m, z, rfl⟩

/-- The segment is a piece of its input curve laid out as one element, and its ends are horizontally within `ε` of it. -/
structure Tight (t : Topo ℝ W) (S : Src) (pos : Nat → OPath) (ε : ℝ) (s : Half) : Prop where
  piece : S.Piece (t.origSeg s.idx)
  within : Within t S s
  one : (pos s.idx).els.length = 1
  ends : ∀ b, |(pt t ⟨s.idx, b⟩).x - solveX (S.seg (t.origSeg s.idx)).toCubic (pt t ⟨s.idx, b⟩).y| ≤ ε

theorem Tight.at {ε : ℝ} {s : Half} (h : Tight t S pos ε s) : |(pt t s).x - solveX (S.seg (t.origSeg s.idx)).toCubic (pt t s).y| ≤ ε := h.ends s.first
theorem Tight.at' {ε : ℝ} {s : Half} (h : Tight t S pos ε s) : |(pt t s.other).x - solveX (S.seg (t.origSeg s.idx)).toCubic (pt t s.other).y| ≤ ε := h.ends _

/-- The runs drawn one after the other, with the pen within `ε` of where the first one begins. -/
theorem runs_near {ε : ℝ} (hε : 0 ≤ ε) : ∀ (runs : List (List Half × List El)) (p : Pt),
    (∀ s ∈ (runs.map Prod.fst).flatten, Laid t pos s) → (∀ s ∈ (runs.map Prod.fst).flatten, (canMerge t S pos s ≠ none ∨ canMerge t S pos s.other ≠ none) → Tight t S pos ε s) →
    ((runs.map Prod.fst).flatten).IsChain (fun a b => Walk t a b ∧ (Joined t S pos a b → Follows t S a b)) →
    (∀ r ∈ runs, RunEls t S pos r.1 r.2 ∧ r.1.IsChain (Joined t S pos)) →
    (∀ s ∈ ((runs.map Prod.fst).flatten).head?, p.y = (pt t s.other).y ∧ |p.x - (pt t s.other).x| ≤ ε) →
    Near (2 * ε) (trace p (runs.map Prod.snd).flatten) (⋃ r ∈ runs, runArea t S pos r.1) ∧
    ∀ s ∈ ((runs.map Prod.fst).flatten).getLast?, (endPt p (runs.map Prod.snd).flatten).y = (pt t s).y ∧ |(endPt p (runs.map Prod.snd).flatten).x - (pt t s).x| ≤ ε
  | [], p, _, _, _, _, _ => by
    refine ⟨?_, by simp⟩
    simpa [trace] using Near.refl (by linarith) (∅ : Set Pt)
  | ρ :: runs, p, hl, ht, hw, hr, hp => by
    obtain ⟨hρ, hj⟩ := hr ρ (by simp)
    simp only [List.map_cons, List.flatten_cons] at hl ht hw hp
    obtain ⟨z, hz⟩ : ∃ z, z ∈ ρ.1.getLast? := by rw [List.getLast?_eq_some_getLast hρ.ne]; exact ⟨_, rfl⟩
    -- one run
    have step : Near (2 * ε) (trace p ρ.2) (runArea t S pos ρ.1) ∧ (endPt p ρ.2).y = (pt t z).y ∧ |(endPt p ρ.2).x - (pt t z).x| ≤ ε := by
      by_cases h1 : ∃ a, ρ.1 = [a]
      · obtain ⟨a, ha⟩ := h1
        obtain ⟨a', ha', he⟩ := hρ.single (by rw [ha]; rfl)
        rw [ha] at ha' hl hp hz
        simp at ha' hz
        subst ha'; subst hz
        obtain ⟨p1, p2⟩ := hp a (by simp)
        obtain ⟨o1, o2⟩ := oriented_ends (hl a (by simp))
        have hne : oriented pos a ≠ [] := by
          intro e; have := oriented_length (pos := pos) a; rw [e] at this; exact (hl a (by simp)).2.2 (List.eq_nil_of_length_eq_zero this.symm)
        obtain ⟨s1, s2⟩ := trace_shift hne p1
        rw [o1] at s2
        rw [o2] at s1
        rw [he, ha, s2]
        exact ⟨s1.mono (by linarith), rfl, by simpa using hε⟩
      · push Not at h1
        obtain ⟨a, m, z', hm⟩ := hρ.many_of h1
        have hzz : z' = z := by rw [hm, List.getLast?_concat] at hz; simpa using hz
        subst hzz
        have harea : runArea t S pos ρ.1 = ⋃ s ∈ a :: m ++ [z'], origPart t S s := by
          rw [hm]; cases m <;> rfl
        rw [harea]
        rw [hm] at hρ hj hl ht hw hp
        have hends : ∀ l : List Half, 2 ≤ l.length → l.IsChain (Joined t S pos) → ∀ s ∈ l, canMerge t S pos s ≠ none ∨ canMerge t S pos s.other ≠ none := by
          intro l
          induction l with
          | nil => intro _ _ s hs; simp at hs
          | cons x l ih =>
            intro hlen hch s hs
            cases l with
            | nil => simp at hlen
            | cons y l =>
              rw [List.isChain_cons_cons] at hch
              rcases List.mem_cons.1 hs with rfl | hs
              · exact Or.inl hch.1.1
              · cases l with
                | nil => simp at hs; subst hs; exact Or.inr hch.1.2
                | cons w l => exact ih (by simp) hch.2 s hs
        have htight : ∀ s ∈ a :: m ++ [z'], Tight t S pos ε s := fun s hs =>
          ht s (List.mem_append_left _ hs) (hends _ (by simp) hj s hs)
        have hF : (a :: m ++ [z']).IsChain (Follows t S) := by
          have h3 := (List.isChain_append.1 hw).1
          rw [List.isChain_iff_getElem] at h3 hj ⊢
          intro i hi
          exact (h3 i hi).2 (hj i hi)
        obtain ⟨p1, p2⟩ := hp a (by simp)
        have ta := htight a (by simp)
        have tz := htight z' (by simp)
        obtain ⟨q1, q2⟩ := C75_merged hρ (fun s hs => ⟨(htight s hs).piece, (htight s hs).within⟩) hj hF ta.one tz.one p1
        refine ⟨q1.mono ?_, by rw [q2], ?_⟩
        · rw [p1]
          have := abs_sub_le p.x (pt t a.other).x (solveX (S.seg (t.origSeg a.idx)).toCubic (pt t a.other).y)
          linarith [ta.at']
        · rw [q2, abs_sub_comm]; exact tz.at
    have hw' := List.isChain_append.1 hw
    obtain ⟨i1, i2⟩ := runs_near hε runs (endPt p ρ.2) (fun s hs => hl s (List.mem_append_right _ hs)) (fun s hs => ht s (List.mem_append_right _ hs)) hw'.2.1
      (fun r hr' => hr r (by simp [hr'])) (fun s hs => by
        rw [(hw'.2.2 z hz s hs).1.pt]
        exact step.2)
    refine ⟨Near.iUnion_cons step.1 i1, ?_⟩
    intro s hs
    simp only [List.map_cons, List.flatten_cons] at hs ⊢
    rw [endPt_append]
    cases hruns : (runs.map Prod.fst).flatten with
    | nil =>
      have : runs = [] := by
        cases runs with
        | nil => rfl
        | cons r rs =>
          exfalso
          simp only [List.map_cons, List.flatten_cons, List.append_eq_nil_iff] at hruns
          exact (hr r (by simp)).1.ne hruns.1
      subst this
      simp only [List.map_nil, List.flatten_nil, List.append_nil] at hs ⊢
      rw [Option.mem_def.1 hz] at hs
      simp only [Option.mem_def, Option.some.injEq] at hs
      subst hs
      exact step.2
    | cons x l =>
      rw [hruns] at hs i2
      rw [List.getLast?_append_of_ne_nil _ (by simp)] at hs
      exact i2 s hs

/-- **C75.** The whole path of a closed contour: suppose that, where the end of a segment of the contour can be merged, the segment is a piece of its input curve laid out as a single
element with its ends within `ε` of it, and that consecutive segments that are joined are consecutive pieces of the same input curve. Then the path is within `2 * ε` of the
layout of the segments that were not joined to others and of the original parts of those that were, and it ends within `ε` of its beginning. -/
theorem C75_path {segs : List Half} {ε : ℝ} (hε : 0 ≤ ε) (hc : Contours.Closed t segs) (hl : ∀ s ∈ segs, Laid t pos s)
    (ht : ∀ s ∈ segs, canMerge t S pos s ≠ none ∨ canMerge t S pos s.other ≠ none → Tight t S pos ε s)
    (hf : ∀ a ∈ segs, ∀ b ∈ segs, Walk t a b → Joined t S pos a b → Follows t S a b) {r : Pt × List El} (h : segsToPath t S pos segs = some r) :
    ∃ runs : List (List Half), (∃ A B, segs = A ++ B ∧ runs.flatten = B ++ A) ∧ (∀ ρ ∈ runs, ρ ≠ [] ∧ ρ.IsChain (Joined t S pos)) ∧
    Near (2 * ε) (trace r.1 r.2) (⋃ ρ ∈ runs, runArea t S pos ρ) ∧ (endPt r.1 r.2).y = r.1.y ∧ |(endPt r.1 r.2).x - r.1.x| ≤ ε := by
  obtain ⟨A, B, s, e, hs, hr, runs, ⟨h1, h2, -⟩, h4⟩ := C74_runs hl h
  obtain ⟨w1, w2⟩ := closed_rotate hc e
  have hmem : ∀ x, x ∈ s :: B ++ A → x ∈ segs := by intro x; rw [e]; simp; tauto
  have hch : (s :: B ++ A).IsChain (fun a b => Walk t a b ∧ (Joined t S pos a b → Follows t S a b)) := by
    rw [List.isChain_iff_getElem] at w1 ⊢
    intro i hi
    exact ⟨w1 i hi, hf _ (hmem _ (List.getElem_mem _)) _ (hmem _ (List.getElem_mem _)) (w1 i hi)⟩
  obtain ⟨q1, q2⟩ := runs_near hε runs r.1 (by rw [h1]; exact fun x hx => hl x (hmem x hx)) (by rw [h1]; exact fun x hx => ht x (hmem x hx)) (by rw [h1]; exact hch) h2
    (by rw [h1]; intro x hx; simp at hx; subst hx; rw [hr]; exact ⟨rfl, by simpa using hε⟩)
  rw [h1, ← h4] at q2
  rw [← h4] at q1
  obtain ⟨z, hz⟩ : ∃ z, z ∈ (s :: B ++ A).getLast? := by
    rw [List.getLast?_eq_some_getLast (by simp)]; exact ⟨_, rfl⟩
  have := q2 z hz
  rw [← (w2 z hz).pt, ← hr] at this
  refine ⟨runs.map Prod.fst, ⟨A, s :: B, e, h1⟩, ?_, ?_, this⟩
  · intro ρ hρ
    obtain ⟨x, hx, rfl⟩ := List.mem_map.1 hρ
    exact ⟨(h2 x hx).1.ne, (h2 x hx).2⟩
  · convert q1 using 1
    ext v
    simp

end Verif.Path
