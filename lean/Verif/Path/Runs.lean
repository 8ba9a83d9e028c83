import Verif.Path.Model

/-!
# The structure of the path of a contour: runs of segments that are joined
-/

namespace Verif.Path
open Verif.Geom Verif.Topo Verif.Pos

variable {W : Type} {t : Topo ℝ W} {S : Src} {pos : Nat → OPath}

open Classical in
theorem canMerge_iff {h : Half} {τ : ℝ} : canMerge t S pos h = some τ ↔
    ¬ (S.seg (t.origSeg h.idx)).Horizontal ∧ (t.nb h).cw = (t.nb h).ccw ∧
    (pos h.idx).copied = some (if h.first then 0 else (pos h.idx).els.length - 1) ∧
    (if h.first = S.orient (t.origSeg h.idx) then 0 < (S.split (t.origSeg h.idx)).1 ∧ (pt t h).y = (S.orientedStart (t.origSeg h.idx)).y
      else (S.split (t.origSeg h.idx)).2 < 1 ∧ (pt t h).y = (S.orientedEnd (t.origSeg h.idx)).y) ∧
    τ = inputT S (t.origSeg h.idx) (solveT (S.seg (t.origSeg h.idx)).toCubic (pt t h.other).y) := by
  unfold canMerge isSimple
  simp only [beq_iff_eq, decide_eq_true_eq]
  have hc : ((if h.first = true then (pos h.idx).copied == some 0 else (pos h.idx).copied == some ((pos h.idx).els.length - 1)) = true) ↔
      (pos h.idx).copied = some (if h.first then 0 else (pos h.idx).els.length - 1) := by split_ifs <;> simp
  simp only [hc]
  by_cases h1 : (S.seg (t.origSeg h.idx)).Horizontal
  · simp [h1]
  rw [if_neg h1]
  by_cases h2 : (t.nb h).cw = (t.nb h).ccw
  swap
  · simp [h2]
  rw [if_pos h2]
  by_cases h3 : h.first = S.orient (t.origSeg h.idx)
  · rw [if_pos h3, if_pos h3]
    by_cases h4 : 0 < (S.split (t.origSeg h.idx)).1 ∧ (pos h.idx).copied = some (if h.first then 0 else (pos h.idx).els.length - 1) ∧
        (pt t h).y = (S.orientedStart (t.origSeg h.idx)).y
    · rw [if_pos h4, Option.some.injEq]; tauto
    · rw [if_neg h4]; constructor
      · intro h; simp at h
      · intro h; tauto
  · rw [if_neg h3, if_neg h3]
    by_cases h4 : (S.split (t.origSeg h.idx)).2 < 1 ∧ (pos h.idx).copied = some (if h.first then 0 else (pos h.idx).els.length - 1) ∧
        (pt t h).y = (S.orientedEnd (t.origSeg h.idx)).y
    · rw [if_pos h4, Option.some.injEq]; tauto
    · rw [if_neg h4]; constructor
      · intro h; simp at h
      · intro h; tauto

theorem pathLoop_merge {s : Half} {σ : ℝ} (h : canMerge t S pos s.other = some σ) (l : List Half) (τ : ℝ) (ret : List El) :
    pathLoop t S pos (s :: l) (some τ) ret = pathLoop t S pos l (if canMerge t S pos s = none then none else some τ)
      (ret.dropLast ++ [(subInput (S.input (t.origSeg s.idx)) τ σ).el] ++ (oriented pos s).tail) := by
  conv_lhs => unfold pathLoop
  simp only [h]

theorem pathLoop_plain {s : Half} {u : Option ℝ} (h : canMerge t S pos s.other = none ∨ u = none) (l : List Half) (ret : List El) :
    pathLoop t S pos (s :: l) u ret = pathLoop t S pos l (canMerge t S pos s) (ret ++ oriented pos s) := by
  conv_lhs => unfold pathLoop
  rcases h with h | rfl
  · simp only [h]
  · cases canMerge t S pos s.other <;> rfl

theorem revEls_length (p : Pt) (l : List El) : (revEls p l).length = l.length := by
  induction l generalizing p with
  | nil => rfl
  | cons e l ih => simp [revEls, ih]

theorem oriented_length (s : Half) : (oriented pos s).length = (pos s.idx).els.length := by
  unfold oriented; split_ifs
  · exact revEls_length _ _
  · rfl

/-- A segment that can be merged at both ends is a single piece. -/
theorem both_one {s : Half} (hne : (pos s.idx).els ≠ []) (h1 : canMerge t S pos s ≠ none) (h2 : canMerge t S pos s.other ≠ none) :
    (oriented pos s).length = 1 := by
  obtain ⟨a, ha⟩ := Option.ne_none_iff_exists'.1 h1
  obtain ⟨b, hb⟩ := Option.ne_none_iff_exists'.1 h2
  have e1 := (canMerge_iff.1 ha).2.2.1
  have e2 := (canMerge_iff.1 hb).2.2.1
  rw [oriented_length]
  have : (pos s.idx).els.length ≠ 0 := by simpa using hne
  rw [show s.other.idx = s.idx from rfl, e1] at e2
  cases hf : s.first <;> simp [Half.other, hf] at e2 <;> omega

/-- The end of the segment `a` and the beginning of `b` can be merged. -/
def Joined (t : Topo ℝ W) (S : Src) (pos : Nat → OPath) (a b : Half) : Prop := canMerge t S pos a ≠ none ∧ canMerge t S pos b.other ≠ none

/-- What is drawn for a run of joined segments: a single segment is drawn as it is; for more, a part of the input curve replaces the last piece of the
first segment, the segments in the middle, and the first piece of the last segment. -/
inductive RunEls (t : Topo ℝ W) (S : Src) (pos : Nat → OPath) : List Half → List El → Prop
  | one (a : Half) : RunEls t S pos [a] (oriented pos a)
  | many (a z : Half) (m : List Half) (τ σ : ℝ) (hτ : canMerge t S pos a = some τ) (hσ : canMerge t S pos z.other = some σ) :
      RunEls t S pos (a :: m ++ [z]) ((oriented pos a).dropLast ++ [(subInput (S.input (t.origSeg z.idx)) τ σ).el] ++ (oriented pos z).tail)

theorem RunEls.ne {r : List Half} {es : List El} (h : RunEls t S pos r es) : r ≠ [] := by cases h <;> simp

/-- The decomposition of a list of segments into runs with what is drawn. -/
def Runs (t : Topo ℝ W) (S : Src) (pos : Nat → OPath) (l : List Half) (runs : List (List Half × List El)) : Prop :=
  (runs.map Prod.fst).flatten = l ∧ (∀ r ∈ runs, RunEls t S pos r.1 r.2 ∧ r.1.IsChain (Joined t S pos)) ∧
  runs.IsChain fun r r' => ∀ a ∈ r.1.getLast?, ∀ b ∈ r'.1.head?, ¬ Joined t S pos a b

/-- The head of the current run and the last segment determine the state of the loop. -/
theorem loop_runs (l : List Half) (hne : ∀ s ∈ l, (pos s.idx).els ≠ []) : ∀ (c : List Half) (es D : List El) (a : Half) (h : c.getLast? = some a)
    (hd : Half) (hh : c.head? = some hd) (hc : RunEls t S pos c es) (hch : c.IsChain (Joined t S pos)) (hes : (pos a.idx).els ≠ []),
    ∃ runs, Runs t S pos (c ++ l) runs ∧
      pathLoop t S pos l (if canMerge t S pos a = none then none else canMerge t S pos hd) (D ++ es) = D ++ (runs.map Prod.snd).flatten := by
  induction l with
  | nil =>
    intro c es D a h hd hh hc hch hes
    exact ⟨[(c, es)], ⟨by simp, by simpa using ⟨hc, hch⟩, by simp⟩, by simp [pathLoop]⟩
  | cons b l ih =>
    intro c es D a h hd hh hc hch hes
    have hb := hne b (by simp)
    by_cases hj : Joined t S pos a b
    · obtain ⟨τa, ha⟩ := Option.ne_none_iff_exists'.1 hj.1
      obtain ⟨σ, hσ⟩ := Option.ne_none_iff_exists'.1 hj.2
      -- the first of the run can be merged at its end
      obtain ⟨τ, hτ⟩ : ∃ τ, canMerge t S pos hd = some τ := by
        cases hc with
        | one x =>
          simp at h hh
          subst h; subst hh
          exact ⟨_, ha⟩
        | many x z m τ σ hτ _ =>
          simp at hh; subst hh
          exact ⟨_, hτ⟩
      have hdrop : (D ++ es).dropLast = D ++ (oriented pos hd).dropLast := by
        cases hc with
        | one x =>
          simp at h hh
          subst h; subst hh
          have : oriented pos x ≠ [] := by
            intro e; have := oriented_length (pos := pos) x; rw [e] at this; exact hes (List.eq_nil_of_length_eq_zero this.symm)
          rw [List.dropLast_append_of_ne_nil this]
        | many x z m τ σ hτ hσ =>
          rw [List.getLast?_concat, Option.some.injEq] at h
          simp at hh
          subst hh; subst h
          have := both_one hes (by rw [ha]; simp) (by rw [hσ]; simp)
          have : (oriented pos z).tail = [] := by
            apply List.eq_nil_of_length_eq_zero; rw [List.length_tail, this]
          rw [this, List.append_nil, ← List.append_assoc, List.dropLast_concat]
      obtain ⟨m, rfl⟩ : ∃ m, c = hd :: m := by
        cases c with
        | nil => simp at hh
        | cons x m => simp at hh; exact ⟨m, by rw [hh]⟩
      have hc' : RunEls t S pos ((hd :: m) ++ [b]) ((oriented pos hd).dropLast ++ [(subInput (S.input (t.origSeg b.idx)) τ σ).el] ++ (oriented pos b).tail) :=
        .many hd b m τ σ hτ hσ
      have hch' : ((hd :: m) ++ [b]).IsChain (Joined t S pos) := by
        rw [List.isChain_append]
        refine ⟨hch, by simp, ?_⟩
        intro x hx y hy
        rw [h] at hx
        simp at hx hy
        subst hx; subst hy
        exact hj
      obtain ⟨runs, h1, h2⟩ := ih (fun s hs => hne s (by simp [hs])) _ _ D b (List.getLast?_concat) hd (by simp) hc' hch' hb
      refine ⟨runs, by simpa using h1, ?_⟩
      have e0 : (if canMerge t S pos a = none then none else canMerge t S pos hd) = some τ := by rw [if_neg (show ¬ canMerge t S pos a = none by rw [ha]; simp), hτ]
      rw [← h2, e0, pathLoop_merge hσ, hdrop, hτ]
      simp only [List.append_assoc]
    · refine ?_
      obtain ⟨runs, h1, h2⟩ := ih (fun s hs => hne s (by simp [hs])) [b] (oriented pos b) (D ++ es) b rfl b rfl (.one b) (by simp) hb
      obtain ⟨e1, e2, e3⟩ := h1
      refine ⟨(c, es) :: runs, ⟨by simpa using e1, ?_, ?_⟩, ?_⟩
      · intro r hr
        rcases List.mem_cons.1 hr with rfl | hr
        · exact ⟨hc, hch⟩
        · exact e2 r hr
      · cases runs with
        | nil => simp
        | cons r runs =>
          refine List.IsChain.cons_cons ?_ e3
          intro x hx y hy
          rw [h] at hx
          simp only [Option.mem_def, Option.some.injEq] at hx
          subst hx
          have : r.1.head? = some b := by
            have hr := (e2 r (by simp)).1.ne
            obtain ⟨z, w, hzw⟩ := List.exists_cons_of_ne_nil hr
            rw [List.map_cons, List.flatten_cons, hzw] at e1
            simp at e1
            rw [hzw, e1.1]; rfl
          rw [this] at hy
          simp only [Option.mem_def, Option.some.injEq] at hy
          subst hy
          exact hj
      · have hstep : pathLoop t S pos (b :: l) (if canMerge t S pos a = none then none else canMerge t S pos hd) (D ++ es) =
            pathLoop t S pos l (canMerge t S pos b) (D ++ es ++ oriented pos b) := by
          apply pathLoop_plain
          by_cases h0 : canMerge t S pos a = none
          · exact Or.inr (if_pos h0)
          · exact Or.inl (by by_contra hx; exact hj ⟨h0, hx⟩)
        rw [hstep]
        have : (if canMerge t S pos b = none then none else canMerge t S pos b) = canMerge t S pos b := by
          by_cases h0 : canMerge t S pos b = none
          · rw [if_pos h0, h0]
          · rw [if_neg h0]
        rw [this] at h2
        rw [h2]
        simp

open Classical in
/-- What `segs_to_path` returns. -/
theorem segsToPath_spec {segs : List Half} (hne : ∀ s ∈ segs, (pos s.idx).els ≠ []) {r : Pt × List El} (h : segsToPath t S pos segs = some r) :
    ∃ (A B : List Half) (s : Half), segs = A ++ s :: B ∧ canMerge t S pos s.other = none ∧ r.1 = pt t s.other ∧
      ∃ runs, Runs t S pos (s :: B ++ A) runs ∧ r.2 = (runs.map Prod.snd).flatten := by
  unfold segsToPath at h
  cases hk : segs.findIdx? fun s => decide (canMerge t S pos s.other = none) with
  | none => rw [hk] at h; simp at h
  | some k =>
    rw [hk] at h
    obtain ⟨hlt, hp, -⟩ := List.findIdx?_eq_some_iff_getElem.1 hk
    simp only [List.getElem?_eq_getElem hlt, Option.some.injEq] at h
    have hsplit : segs.drop k = segs[k] :: segs.drop (k + 1) := List.drop_eq_getElem_cons hlt
    refine ⟨segs.take k, segs.drop (k + 1), segs[k], ?_, by simpa using hp, by rw [← h], ?_⟩
    · rw [← hsplit, List.take_append_drop]
    · have hp' : canMerge t S pos segs[k].other = none := by simpa using hp
      obtain ⟨runs, h1, h2⟩ := loop_runs (t := t) (S := S) (pos := pos) (segs.drop (k + 1) ++ segs.take k)
        (fun s hs => hne s (by
          rcases List.mem_append.1 hs with hs | hs
          · exact List.mem_of_mem_drop hs
          · exact List.mem_of_mem_take hs)) [segs[k]] (oriented pos segs[k]) [] segs[k] rfl segs[k] rfl (.one _) (by simp) (hne _ (List.getElem_mem hlt))
      refine ⟨runs, h1, ?_⟩
      rw [← h]
      simp only [hsplit, List.cons_append]
      rw [pathLoop_plain (Or.inr rfl)]
      simp only [List.nil_append] at h2 ⊢
      have : (if canMerge t S pos segs[k] = none then none else canMerge t S pos segs[k]) = canMerge t S pos segs[k] := by
        by_cases h0 : canMerge t S pos segs[k] = none
        · rw [if_pos h0, h0]
        · rw [if_neg h0]
      rw [this] at h2
      exact h2

end Verif.Path
