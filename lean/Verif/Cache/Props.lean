import Verif.Cache.Model
import Verif.Curve.Props

/-! # Property C12: the comparison cache -/

namespace Verif.Cache

open Verif.Curve

variable {K : Type} [LinearOrder K]

/-! ## Specification -/

/-- The same unordered pair of segments. -/
def SamePair (p q : Nat × Nat) : Prop := p = q ∨ p = (q.2, q.1)

instance (p q : Nat × Nat) : Decidable (SamePair p q) := by unfold SamePair; infer_instance

/-- The answer expected for query `q` when the queries asked so far (including `q`) are `asked`:
the freshly computed comparison for the *first* query on the same unordered pair, mirrored if that
query was asked the other way round. -/
def expected (fresh : Nat → Nat → CurveOrder K) (asked : List (Nat × Nat)) (q : Nat × Nat) :
    Option (CurveOrder K) :=
  (asked.find? (fun p => SamePair p q)).map fun p =>
    if p = q then fresh p.1 p.2 else (fresh p.1 p.2).flip

/-! ## Proofs -/

theorem samePair_symm {p q : Nat × Nat} : SamePair p q ↔ SamePair q p := by
  obtain ⟨a, b⟩ := p; obtain ⟨c, d⟩ := q
  simp [SamePair]; omega

/-- The invariant: the map answers exactly what the history determines. -/
structure Inv (fresh : Nat → Nat → CurveOrder K) (asked : List (Nat × Nat)) (c : Cache K) : Prop where
  ans : ∀ q, c.inner q = expected fresh asked q
  log_sub : ∀ p ∈ c.log, p ∈ asked
  log_all : ∀ q ∈ asked, ∃ p ∈ c.log, SamePair p q
  log_once : c.log.Pairwise (fun p q => ¬ SamePair p q)

theorem step (raw fresh : Nat → Nat → CurveOrder K) (isZero : Bool) (down up : K → K)
    (hf : ∀ i j, (raw i j).withYSlop isZero down up = some (fresh i j))
    (asked : List (Nat × Nat)) (c : Cache K) (h : Inv fresh asked c) (q : Nat × Nat) :
    ∃ o c', compareSegments raw isZero down up c q.1 q.2 = some (o, c') ∧
      Inv fresh (asked ++ [q]) c' ∧ expected fresh (asked ++ [q]) q = some o := by
  obtain ⟨i, j⟩ := q
  simp only [compareSegments]
  have hfind : ∀ r, (asked ++ [(i, j)]).find? (fun p => decide (SamePair p r)) =
      (asked.find? (fun p => decide (SamePair p r))).or
        (if SamePair (i, j) r then some (i, j) else none) := by
    intro r; rw [List.find?_append]
    congr 1
    by_cases hs : SamePair (i, j) r <;> simp [hs]
  have hprev := h.ans (i, j)
  cases hin : c.inner (i, j) with
  | some o =>
    rw [hin] at hprev
    simp only [expected] at hprev
    obtain ⟨p, hp1, hp2⟩ : ∃ p, asked.find? (fun p => decide (SamePair p (i, j))) = some p ∧
        (if p = (i, j) then fresh p.1 p.2 else (fresh p.1 p.2).flip) = o := by
      have := hprev.symm
      rw [Option.map_eq_some_iff] at this
      exact this
    have hps : SamePair p (i, j) := by simpa using List.find?_some hp1
    have hpm := List.mem_of_find?_eq_some hp1
    refine ⟨o, c, rfl, ⟨?_, ?_, ?_, h.log_once⟩, ?_⟩
    · intro r
      rw [h.ans r]
      simp only [expected, hfind r]
      cases hr : asked.find? (fun p => decide (SamePair p r)) with
      | some x => simp
      | none =>
        have : ¬ SamePair (i, j) r := by
          intro hs
          rw [List.find?_eq_none] at hr
          apply hr p hpm
          simp only [decide_eq_true_eq]
          simp only [SamePair] at hps hs ⊢
          obtain ⟨a, b⟩ := p; obtain ⟨e, f⟩ := r
          simp at hps hs ⊢; omega
        simp [this]
    · intro x hx; exact List.mem_append_left _ (h.log_sub x hx)
    · intro x hx
      rw [List.mem_append] at hx
      rcases hx with hx | hx
      · exact h.log_all x hx
      · have : x = (i, j) := by simpa using hx
        subst this
        obtain ⟨y, hy, hys⟩ := h.log_all p hpm
        refine ⟨y, hy, ?_⟩
        simp only [SamePair] at hps hys ⊢
        obtain ⟨a, b⟩ := p; obtain ⟨e, f⟩ := y
        simp at hps hys ⊢; omega
    · simp only [expected, hfind, hp1]
      simp [hp2]
  | none =>
    rw [hin] at hprev
    have hnone : asked.find? (fun p => decide (SamePair p (i, j))) = none := by
      have := hprev.symm
      simpa [expected] using this
    have hno : ∀ p ∈ asked, ¬ SamePair p (i, j) := by
      intro p hp hs
      rw [List.find?_eq_none] at hnone
      exact hnone p hp (by simpa using hs)
    simp only [hf]
    refine ⟨_, _, rfl, ⟨?_, ?_, ?_, ?_⟩, ?_⟩
    · intro r
      obtain ⟨a, b⟩ := r
      simp only [mapInsert, expected, hfind]
      by_cases h1 : (a, b) = (i, j)
      · rw [h1, if_pos rfl, hnone]
        have : SamePair (i, j) (i, j) := .inl rfl
        simp [this]
      · rw [if_neg h1]
        by_cases h2 : (a, b) = (j, i)
        · rw [if_pos h2]
          have hnone' : asked.find? (fun p => decide (SamePair p (a, b))) = none := by
            rw [List.find?_eq_none]
            intro p hp hs
            apply hno p hp
            have hs' : SamePair p (a, b) := by simpa using hs
            obtain ⟨e, f⟩ := p
            simp only [SamePair, Prod.mk.injEq] at hs' h2 ⊢; omega
          rw [hnone']
          have : SamePair (i, j) (a, b) := by
            simp only [SamePair, Prod.mk.injEq] at h2 ⊢; omega
          have h3 : ¬ (i, j) = (a, b) := fun e => h1 e.symm
          simp only [this, if_true, Option.none_or, Option.map_some, if_neg h3]
        · rw [if_neg h2, h.ans]
          have : ¬ SamePair (i, j) (a, b) := by
            simp only [SamePair, Prod.mk.injEq] at h1 h2 ⊢; omega
          simp [this, expected]
    · intro x hx
      simp only [List.mem_cons] at hx
      rcases hx with rfl | hx
      · simp
      · exact List.mem_append_left _ (h.log_sub x hx)
    · intro x hx
      rw [List.mem_append] at hx
      rcases hx with hx | hx
      · obtain ⟨y, hy, hys⟩ := h.log_all x hx
        exact ⟨y, List.mem_cons_of_mem _ hy, hys⟩
      · have : x = (i, j) := by simpa using hx
        exact ⟨(i, j), by simp, .inl this.symm⟩
    · rw [List.pairwise_cons]
      refine ⟨?_, h.log_once⟩
      intro x hx hs
      exact hno x (h.log_sub x hx) (samePair_symm.1 hs)
    · simp only [expected, hfind, hnone]
      have : SamePair (i, j) (i, j) := .inl rfl
      simp [this]

theorem run_inv (raw fresh : Nat → Nat → CurveOrder K) (isZero : Bool) (down up : K → K)
    (hf : ∀ i j, (raw i j).withYSlop isZero down up = some (fresh i j)) (qs : List (Nat × Nat)) :
    ∀ (asked : List (Nat × Nat)) (c : Cache K), Inv fresh asked c →
    ∃ os c', run raw isZero down up c qs = some (os, c') ∧ os.length = qs.length ∧
      Inv fresh (asked ++ qs) c' ∧
      ∀ pre q post, qs = pre ++ q :: post →
        os[pre.length]? = expected fresh (asked ++ pre ++ [q]) q := by
  induction qs with
  | nil =>
    intro asked c h
    exact ⟨[], c, rfl, rfl, by simpa using h, by simp⟩
  | cons q qs ih =>
    intro asked c h
    obtain ⟨o, c', h1, h2, h3⟩ := step raw fresh isZero down up hf asked c h q
    obtain ⟨os, c'', g1, g2, g3, g4⟩ := ih (asked ++ [q]) c' h2
    refine ⟨o :: os, c'', by simp [run, h1, g1], by simp [g2], by simpa using g3, ?_⟩
    intro pre r post he
    cases pre with
    | nil =>
      simp at he
      obtain ⟨rfl, rfl⟩ := he
      simp [h3]
    | cons a pre =>
      simp at he
      obtain ⟨rfl, rfl⟩ := he
      have := g4 pre r post rfl
      simpa using this

/-! ## C12 -/

/-- **C12 (answers).** Whatever the raw comparisons are (as long as they are well-formed), any history
of queries on a fresh cache succeeds; each answer is the slop-widened comparison computed at the first
query on that unordered pair, mirrored if that query was the other way round. -/
theorem C12_answers (raw : Nat → Nat → CurveOrder K) (hraw : ∀ i j, WF (raw i j)) (isZero : Bool)
    (down up : K → K) (hdown : ∀ x, down x ≤ x) (hup : ∀ x, x ≤ up x) (qs : List (Nat × Nat)) :
    ∃ fresh : Nat → Nat → CurveOrder K,
      (∀ i j, (raw i j).withYSlop isZero down up = some (fresh i j)) ∧
      ∃ os c', run raw isZero down up new qs = some (os, c') ∧ os.length = qs.length ∧
        ∀ pre q post, qs = pre ++ q :: post →
          os[pre.length]? = expected fresh (pre ++ [q]) q := by
  have hex : ∀ i j, ∃ f, (raw i j).withYSlop isZero down up = some f := by
    intro i j
    obtain ⟨as, l, e1, e2⟩ := wf_snoc (hraw i j)
    obtain ⟨c', h1, _⟩ := C10_slop_wf isZero down up hdown hup (raw i j) (hraw i j) l.stop ⟨l, e2, rfl⟩
    exact ⟨c', h1⟩
  refine ⟨fun i j => (hex i j).choose, fun i j => (hex i j).choose_spec, ?_⟩
  obtain ⟨os, c', h1, h2, _, h4⟩ := run_inv raw _ isZero down up
    (fun i j => (hex i j).choose_spec) qs [] (new : Cache K)
    ⟨by intro q; simp [new, expected], by simp [new], by simp, by simp [new]⟩
  exact ⟨os, c', h1, h2, by simpa using h4⟩

/-- **C12 (antisymmetry).** In any history, if `(i,j)` and `(j,i)` (`i ≠ j`) are both asked, at any
times, the two answers are mirror images; asking `(i,j)` twice gives the same answer. -/
theorem C12_stable (raw : Nat → Nat → CurveOrder K) (hraw : ∀ i j, WF (raw i j)) (isZero : Bool)
    (down up : K → K) (hdown : ∀ x, down x ≤ x) (hup : ∀ x, x ≤ up x) (qs : List (Nat × Nat)) :
    ∃ os c', run raw isZero down up new qs = some (os, c') ∧
      ∀ (m n : Nat) (q : Nat × Nat), m < n → qs[m]? = some q →
        (qs[n]? = some q → os[n]? = os[m]?) ∧
        (q.1 ≠ q.2 → qs[n]? = some (q.2, q.1) → os[n]? = os[m]?.map CurveOrder.flip) := by
  obtain ⟨fresh, _, os, c', h1, h2, h3⟩ := C12_answers raw hraw isZero down up hdown hup qs
  refine ⟨os, c', h1, ?_⟩
  have key : ∀ k r, qs[k]? = some r → os[k]? = expected fresh (qs.take (k + 1)) r := by
    intro k r hk
    obtain ⟨hlt, he⟩ := List.getElem?_eq_some_iff.1 hk
    have hsplit : qs = qs.take k ++ r :: qs.drop (k + 1) := by
      rw [← he, List.getElem_cons_drop, List.take_append_drop]
    have := h3 (qs.take k) r (qs.drop (k + 1)) hsplit
    have hl : (qs.take k).length = k := by simp; omega
    rw [hl] at this
    rw [this]
    congr 1
    rw [← he, List.take_append_getElem]
  intro m n q hmn hm
  have hm' := key m q hm
  -- the first relevant query is among the first `m+1`
  obtain ⟨hlt, he⟩ := List.getElem?_eq_some_iff.1 hm
  have htake : qs.take (n + 1) = qs.take (m + 1) ++ (qs.take (n + 1)).drop (m + 1) := by
    conv => lhs; rw [← List.take_append_drop (m + 1) (qs.take (n + 1))]
    rw [List.take_take, Nat.min_eq_left (by omega)]
  have hmem : q ∈ qs.take (m + 1) := by
    rw [List.mem_take_iff_getElem]
    exact ⟨m, by omega, he⟩
  have hex : ∀ r, SamePair q r → ∃ x, (qs.take (m + 1)).find? (fun p => decide (SamePair p r)) = some x ∧
      (qs.take (n + 1)).find? (fun p => decide (SamePair p r)) = some x := by
    intro r hr
    cases hf : (qs.take (m + 1)).find? (fun p => decide (SamePair p r)) with
    | none =>
      rw [List.find?_eq_none] at hf
      exact absurd (by simpa using hr) (hf q hmem)
    | some x =>
      refine ⟨x, rfl, ?_⟩
      rw [htake, List.find?_append, hf]; rfl
  constructor
  · intro hn
    obtain ⟨x, hx1, hx2⟩ := hex q (.inl rfl)
    rw [key n q hn, hm']
    simp only [expected, hx1, hx2]
  · intro hne hn
    obtain ⟨x, hx1, hx2⟩ := hex (q.2, q.1) (.inr rfl)
    obtain ⟨z, hz1, hz2⟩ := hex q (.inl rfl)
    have hxz : x = z := by
      have : (fun p => decide (SamePair p (q.2, q.1))) = (fun p => decide (SamePair p q)) := by
        funext p
        obtain ⟨a, b⟩ := p; obtain ⟨e, f⟩ := q
        exact decide_eq_decide.2 Or.comm
      rw [this] at hx1
      rw [hx1] at hz1; simpa using hz1
    subst hxz
    rw [key n _ hn, hm']
    simp only [expected, hx2, hz1, Option.map_some]
    have hxs : SamePair x q := by simpa using List.find?_some hz1
    obtain ⟨a, b⟩ := q
    rcases hxs with rfl | rfl
    · have : ¬ ((a, b) = (b, a)) := by simp at hne ⊢; omega
      simp [this]
    · have : ¬ ((b, a) = (a, b)) := by simp at hne ⊢; omega
      simp only [this, if_false, if_true]
      rw [C09_flip_flip]

/-- **C12 (computed at most once).** In any history the expensive comparison is computed exactly once
for each unordered pair asked about, and for no other. -/
theorem C12_computed_once (raw : Nat → Nat → CurveOrder K) (hraw : ∀ i j, WF (raw i j)) (isZero : Bool)
    (down up : K → K) (hdown : ∀ x, down x ≤ x) (hup : ∀ x, x ≤ up x) (qs : List (Nat × Nat)) :
    ∃ os c', run raw isZero down up new qs = some (os, c') ∧
      (∀ p ∈ c'.log, p ∈ qs) ∧ (∀ q ∈ qs, ∃ p ∈ c'.log, SamePair p q) ∧
      c'.log.Pairwise (fun p q => ¬ SamePair p q) := by
  obtain ⟨fresh, hf, _⟩ := C12_answers raw hraw isZero down up hdown hup qs
  obtain ⟨os, c', h1, _, h3, _⟩ := run_inv raw fresh isZero down up hf qs [] (new : Cache K)
    ⟨by intro q; simp [new, expected], by simp [new], by simp, by simp [new]⟩
  exact ⟨os, c', h1, by simpa using h3.log_sub, by simpa using h3.log_all, h3.log_once⟩

/-- Non-vacuity: a history that asks a pair in both directions. -/
example : (run (fun i j => (⟨0, [⟨10, if i < j then .left else .ish⟩]⟩ : CurveOrder Nat)) true id id new
    [(1, 2), (3, 1), (2, 1), (1, 2)]).map (·.1) =
    some [⟨0, [⟨10, .left⟩]⟩, ⟨0, [⟨10, .ish⟩]⟩, ⟨0, [⟨10, .right⟩]⟩, ⟨0, [⟨10, .left⟩]⟩] := by
  decide
example : ∀ i j : Nat, WF (⟨0, [⟨10, if i < j then .left else .ish⟩]⟩ : CurveOrder Nat) := by
  intro i j
  refine ⟨by simp, ?_⟩
  simp [CurveOrder.iter, pieces, Tiled]

end Verif.Cache
