import Verif.Sweep.Exit

/-! Reordering the sweep line. -/

namespace Verif.Sweep
open Verif.Curve Verif.Range Verif.Topo
set_option linter.unusedSectionVars false

variable {K : Type} [LinearOrder K]

/-! ## Selecting by place -/

/-- The elements whose place satisfies `p`; the first one has place `k`. -/
def selIdx {α : Type} (p : Nat → Bool) : Nat → List α → List α
  | _, [] => []
  | k, a :: as => if p k then a :: selIdx p (k + 1) as else selIdx p (k + 1) as

theorem selIdx_append {α : Type} (p : Nat → Bool) (k : Nat) (a b : List α) :
    selIdx p k (a ++ b) = selIdx p k a ++ selIdx p (k + a.length) b := by
  induction a generalizing k with
  | nil => simp [selIdx]
  | cons x a ih =>
    simp only [selIdx, List.cons_append, List.length_cons]
    rw [ih, show k + 1 + a.length = k + (a.length + 1) by omega]
    split_ifs <;> rfl

theorem selIdx_congr {α : Type} {p q : Nat → Bool} {k : Nat} {a : List α} (h : ∀ i, k ≤ i → i < k + a.length → p i = q i) :
    selIdx p k a = selIdx q k a := by
  induction a generalizing k with
  | nil => rfl
  | cons x a ih =>
    simp only [selIdx]
    rw [h k (le_refl _) (by simp), ih fun i h1 h2 => h i (by omega) (by simp only [List.length_cons]; omega)]

theorem selIdx_true {α : Type} {p : Nat → Bool} {k : Nat} {a : List α} (h : ∀ i, k ≤ i → i < k + a.length → p i = true) :
    selIdx p k a = a := by
  induction a generalizing k with
  | nil => rfl
  | cons x a ih =>
    simp only [selIdx]
    rw [if_pos (h k (le_refl _) (by simp)), ih fun i h1 h2 => h i (by omega) (by simp only [List.length_cons]; omega)]

theorem selIdx_false {α : Type} {p : Nat → Bool} {k : Nat} {a : List α} (h : ∀ i, k ≤ i → i < k + a.length → p i = false) :
    selIdx p k a = [] := by
  induction a generalizing k with
  | nil => rfl
  | cons x a ih =>
    simp only [selIdx]
    rw [if_neg (by simp [h k (le_refl _) (by simp)]), ih fun i h1 h2 => h i (by omega) (by simp only [List.length_cons]; omega)]

theorem selIdx_perm {α : Type} (p : Nat → Bool) (k : Nat) (a : List α) :
    (selIdx (fun i => !p i) k a ++ selIdx p k a).Perm a := by
  induction a generalizing k with
  | nil => exact List.Perm.refl _
  | cons x a ih =>
    simp only [selIdx]
    by_cases h : p k = true
    · simp only [h, Bool.not_true, Bool.false_eq_true, if_false, if_true]
      exact (List.perm_middle).trans ((ih _).cons x)
    · have h : p k = false := by simpa using h
      simp only [h, Bool.not_false, Bool.false_eq_true, if_false, if_true]
      exact (ih _).cons x

theorem erase_sel {α : Type} (js : List Nat) (hj : js.Pairwise (· > ·)) (line : List α) :
    js.foldl List.eraseIdx line = selIdx (fun i => decide (i ∉ js)) 0 line := by
  induction js generalizing line with
  | nil => simp [selIdx_true]
  | cons j js ih =>
    rw [List.pairwise_cons] at hj
    rw [List.foldl_cons, ih hj.2]
    by_cases hlt : j < line.length
    · obtain ⟨l1, l2, e1, e2, -, e4⟩ := split_at (List.getElem?_eq_getElem hlt)
      rw [e4]
      conv_rhs => rw [e1]
      rw [selIdx_append, selIdx_append]
      congr 1
      · refine selIdx_congr ?_
        intro i h1 h2
        have hne : i ≠ j := by omega
        simp [hne]
      · simp only [selIdx]
        rw [if_neg (by simp [e2])]
        rw [selIdx_true, selIdx_true]
        · intro i h1 h2
          simp only [decide_eq_true_eq, List.mem_cons, not_or]
          refine ⟨by omega, fun h3 => ?_⟩
          have := hj.1 i h3
          omega
        · intro i h1 h2
          simp only [decide_eq_true_eq]
          intro h3
          have := hj.1 i h3
          omega
    · rw [List.eraseIdx_of_length_le (by omega)]
      refine selIdx_congr ?_
      intro i h1 h2
      have hne : i ≠ j := by omega
      simp [hne]

theorem pick_sel {α : Type} (js : List Nat) (hj : js.Pairwise (· < ·)) (k : Nat) (line : List α) (hk : ∀ j ∈ js, k ≤ j) :
    js.filterMap (fun j => line[j - k]?) = selIdx (fun i => decide (i ∈ js)) k line := by
  induction line generalizing k js with
  | nil => simp [selIdx]
  | cons a line ih =>
    simp only [selIdx]
    cases js with
    | nil =>
      simp only [List.filterMap_nil, List.not_mem_nil, decide_false, Bool.false_eq_true, if_false]
      rw [selIdx_false]
      intros; rfl
    | cons j js =>
      rw [List.pairwise_cons] at hj
      by_cases hjk : j = k
      · subst hjk
        rw [if_pos (by simp)]
        simp only [List.filterMap_cons, Nat.sub_self, List.getElem?_cons_zero]
        congr 1
        rw [selIdx_congr (q := fun i => decide (i ∈ js))]
        · rw [← ih js hj.2 (j + 1) fun i hi => hj.1 i hi]
          refine List.filterMap_congr ?_
          intro i hi
          have := hj.1 i hi
          rw [show i - j = (i - (j + 1)) + 1 by omega, List.getElem?_cons_succ]
        · intro i h1 h2
          simp only [List.mem_cons, decide_eq_decide]
          constructor
          · rintro (h | h)
            · omega
            · exact h
          · exact .inr
      · have hjk' : k < j := by have := hk j (by simp); omega
        rw [if_neg]
        · rw [← ih (j :: js) (List.pairwise_cons.2 hj) (k + 1)]
          · refine List.filterMap_congr ?_
            intro i hi
            have : k < i := by
              rcases List.mem_cons.1 hi with rfl | hi
              · exact hjk'
              · have := hj.1 i hi; omega
            rw [show i - k = (i - (k + 1)) + 1 by omega, List.getElem?_cons_succ]
          · intro i hi
            rcases List.mem_cons.1 hi with rfl | hi
            · exact hjk'
            · have := hj.1 i hi; omega
        · rw [decide_eq_true_eq, List.mem_cons]
          intro h
          rcases h with h | h
          · omega
          · have := hj.1 k h; omega

/-! ## Removing and inserting -/

theorem removeScan_spec {E : Env K} {y : K} (js : List Nat) (hj : js.Pairwise (· > ·)) :
    ∀ {line : List Entry} {q : List (IEvent K)} {r : List Entry × List Entry × List (IEvent K)},
      removeScan E y js line q = some r →
      r.1 = js.filterMap (fun j => line[j]?) ∧ r.2.1 = js.foldl List.eraseIdx line ∧ Grows E y line q r.2.2 ∧
        ∀ j ∈ js, j < line.length := by
  induction js with
  | nil =>
    intro line q r h
    simp only [removeScan, Option.some.injEq] at h
    subst h
    exact ⟨rfl, rfl, Grows.refl .., by simp⟩
  | cons j js ih =>
    intro line q r h
    rw [List.pairwise_cons] at hj
    simp only [removeScan] at h
    split at h
    · simp at h
    rename_i e he
    split at h
    · simp at h
    rename_i q1 hq1
    split at h
    · simp at h
    rename_i rem line' q' hr
    simp only [Option.some.injEq] at h
    subst h
    obtain ⟨g1, g2, g3, g4⟩ := ih hj.2 hr
    have hlt := (List.getElem?_eq_some_iff.1 he).1
    have hmem : ∀ a ∈ line.eraseIdx j, a ∈ line := fun a ha => List.mem_of_mem_eraseIdx ha
    refine ⟨?_, ?_, ((scanForRemoval_grows hq1).mono hmem).trans (g3.mono hmem), ?_⟩
    · dsimp only at g1 ⊢
      rw [List.filterMap_cons, he, g1]
      congr 1
      refine List.filterMap_congr ?_
      intro i hi
      rw [List.getElem?_eraseIdx, if_pos (hj.1 i hi)]
    · exact g2
    · intro i hi
      rcases List.mem_cons.1 hi with rfl | hi
      · exact hlt
      · have := hj.1 i hi; omega

theorem insertAll_spec {E : Env K} {y : K} {pos : Nat} (es : List Entry) :
    ∀ {line : List Entry} {q : List (IEvent K)} {r : List Entry × List (IEvent K)}, pos ≤ line.length →
      insertAll E y pos es line q = some r →
      r.1 = line.take pos ++ es.reverse ++ line.drop pos ∧ Grows E y r.1 q r.2 := by
  induction es with
  | nil =>
    intro line q r hp h
    simp only [insertAll, Option.some.injEq] at h
    subst h
    exact ⟨by simp, Grows.refl ..⟩
  | cons e es ih =>
    intro line q r hp h
    simp only [insertAll] at h
    split at h
    · simp at h
    rename_i line' q' h1
    obtain ⟨g1, g2, g3⟩ := insertScan_spec h1
    obtain ⟨l1, l2, e1, e2, e3⟩ := split_insert line pos e g1
    dsimp only at g2 g3
    have hp' : pos ≤ line'.length := by rw [g2, e3]; simp; omega
    obtain ⟨k1, k2⟩ := ih hp' h
    have hl : r.1 = line.take pos ++ (e :: es).reverse ++ line.drop pos := by
      rw [k1, g2, e3, e1, ← e2]
      simp
    refine ⟨hl, Grows.trans (g3.mono ?_) k2⟩
    intro a ha
    rw [hl]
    rw [e3] at ha
    rw [e1, ← e2]
    simp at ha ⊢
    tauto

theorem range'_lt (a n : Nat) : (List.range' a n).Pairwise (· < ·) := List.pairwise_lt_range'

/-- The places that `collectMoves` collects. -/
theorem collectMoves_spec {E : Env K} {y : K} {line : List Entry} {left right : Nat} (js : List Nat) :
    ∀ {acc moves : List Nat}, collectMoves E y line left right js acc = some (.inr moves) →
      ∃ sub, moves = acc ++ sub ∧ sub.Sublist js ∧
        ∀ j ∈ js, ∃ e, line[j]? = some e ∧ (j ∈ sub → e.willReallyExit = false ∧ (∃ p, (E.cmp left e.seg).entryAt y = some p ∧ p.order = .left) ∧
          ∃ q, (E.cmp e.seg right).entryAt y = some q ∧ q.order ≠ .left) ∧
        (j ∉ sub → e.willReallyExit = true ∨ ∃ p, (E.cmp left e.seg).entryAt y = some p ∧ p.order ≠ .left) := by
  induction js with
  | nil =>
    intro acc moves h
    simp only [collectMoves, Option.some.injEq, Sum.inr.injEq] at h
    subst h
    exact ⟨[], by simp, List.Sublist.refl _, by simp⟩
  | cons j js ih =>
    intro acc moves h
    simp only [collectMoves] at h
    split at h
    · simp at h
    rename_i e he
    -- the place is skipped
    have skip : ∀ {acc moves}, collectMoves E y line left right js acc = some (.inr moves) →
        (e.willReallyExit = true ∨ ∃ p, (E.cmp left e.seg).entryAt y = some p ∧ p.order ≠ .left) →
        ∃ sub, moves = acc ++ sub ∧ sub.Sublist (j :: js) ∧
        ∀ j' ∈ j :: js, ∃ e, line[j']? = some e ∧ (j' ∈ sub → e.willReallyExit = false ∧ (∃ p, (E.cmp left e.seg).entryAt y = some p ∧ p.order = .left) ∧
          ∃ q, (E.cmp e.seg right).entryAt y = some q ∧ q.order ≠ .left) ∧
        (j' ∉ sub → e.willReallyExit = true ∨ ∃ p, (E.cmp left e.seg).entryAt y = some p ∧ p.order ≠ .left) := by
      intro acc moves h1 h2
      obtain ⟨sub, g1, g2, g3⟩ := ih h1
      refine ⟨sub, g1, g2.cons _, ?_⟩
      intro j' hj'
      rcases List.mem_cons.1 hj' with rfl | hj'
      · by_cases hm : j' ∈ sub
        · exact g3 j' (g2.subset hm)
        · exact ⟨e, he, fun h => absurd h hm, fun _ => h2⟩
      · exact g3 j' hj'
    split at h
    · rename_i hw
      exact skip h (.inl hw)
    rename_i hw
    split at h
    · simp at h
    rename_i p hp
    split at h
    · rename_i ho
      split at h
      · simp at h
      rename_i q hq
      split at h
      · simp at h
      rename_i hq2
      obtain ⟨sub, g1, g2, g3⟩ := ih h
      refine ⟨j :: sub, by simp [g1], g2.cons_cons _, ?_⟩
      intro j' hj'
      rcases List.mem_cons.1 hj' with rfl | hj'
      · exact ⟨e, he, fun _ => ⟨by simpa using hw, ⟨p, hp, ho⟩, q, hq, hq2⟩, fun h => absurd (List.mem_cons_self ..) h⟩
      · obtain ⟨f, f1, f2, f3⟩ := g3 j' hj'
        by_cases hjj : j' = j
        · subst hjj
          rw [he] at f1
          simp only [Option.some.injEq] at f1
          subst f1
          exact ⟨e, he, fun _ => ⟨by simpa using hw, ⟨p, hp, ho⟩, q, hq, hq2⟩, fun h => absurd (List.mem_cons_self ..) h⟩
        · refine ⟨f, f1, fun h => f2 ?_, fun h => f3 fun h' => h (List.mem_cons_of_mem _ h')⟩
          rcases List.mem_cons.1 h with h | h
          · exact absurd h hjj
          · exact h
    · rename_i ho
      exact skip h (.inr ⟨p, hp, ho⟩)

/-- A delayed event lies strictly below the line. -/
theorem collectMoves_delay {E : Env K} {y : K} {line : List Entry} {left right : Nat} (js : List Nat) :
    ∀ {acc : List Nat} {y' : K}, collectMoves E y line left right js acc = some (.inl y') → y < y' := by
  induction js with
  | nil => intro acc y' h; simp [collectMoves] at h
  | cons j js ih =>
    intro acc y' h
    simp only [collectMoves] at h
    split at h
    · simp at h
    split at h
    · exact ih h
    split at h
    · simp at h
    rename_i p hp
    split at h
    · split at h
      · simp at h
      rename_i q hq
      split at h
      · simp only [Option.some.injEq, Sum.inl.injEq] at h
        subst h
        unfold CurveOrder.entryAt at hp hq
        have h1 := List.find?_some hp
        have h2 := List.find?_some hq
        simp only [decide_eq_true_eq] at h1 h2
        exact lt_min h1 h2
      · exact ih h
    · exact ih h

/-! ## The old places -/

/-- An entry without its old place. -/
def Entry.strip (e : Entry) : Entry := { e with oldIdx := none }

/-- The entries with the places they had before any reordering; the first one is at place `k`. -/
def places : Nat → List Entry → List (Nat × Entry)
  | _, [] => []
  | k, e :: es => (e.oldIdx.getD k, e.strip) :: places (k + 1) es

theorem places_append (k : Nat) (a b : List Entry) : places k (a ++ b) = places k a ++ places (k + a.length) b := by
  induction a generalizing k with
  | nil => simp [places]
  | cons x a ih =>
    simp only [places, List.cons_append, List.length_cons]
    rw [ih, show k + 1 + a.length = k + (a.length + 1) by omega]

theorem places_length (k : Nat) (a : List Entry) : (places k a).length = a.length := by
  induction a generalizing k with
  | nil => rfl
  | cons x a ih => simp [places, ih]

theorem places_marked (k : Nat) (a : List Entry) (h : ∀ e ∈ a, e.oldIdx.isSome) :
    places k a = a.map fun e => (e.oldIdx.getD 0, e.strip) := by
  induction a generalizing k with
  | nil => rfl
  | cons x a ih =>
    simp only [places, List.map_cons]
    rw [ih _ fun e he => h e (List.mem_cons_of_mem _ he)]
    have := h x (by simp)
    obtain ⟨v, hv⟩ := Option.isSome_iff_exists.1 this
    simp [hv]

/-- Marking does not change old places. -/
theorem places_congr (k : Nat) {a b : List Entry} (hl : a.length = b.length)
    (h : ∀ (i : Nat) (e f : Entry), a[i]? = some e → b[i]? = some f → e.oldIdx.getD (k + i) = f.oldIdx.getD (k + i) ∧ e.strip = f.strip) :
    places k a = places k b := by
  induction a generalizing k b with
  | nil => cases b with
    | nil => rfl
    | cons => simp at hl
  | cons x a ih => cases b with
    | nil => simp at hl
    | cons z b =>
      simp only [places]
      have h0 := h 0 x z rfl rfl
      simp only [Nat.add_zero] at h0
      rw [h0.1, h0.2, ih (k + 1) (by simpa using hl)]
      intro i e f h1 h2
      have := h (i + 1) e f (by simpa using h1) (by simpa using h2)
      rw [show k + (i + 1) = k + 1 + i by omega] at this
      exact this

theorem markOld_length (line : List Entry) (a b : Nat) : (markOld line a b).length = line.length := by simp [markOld]

theorem markOld_get (line : List Entry) (a b i : Nat) :
    (markOld line a b)[i]? = line[i]?.map fun e => if a ≤ i ∧ i < b then e.setOld i else e := by
  simp [markOld, List.getElem?_mapIdx]

theorem setOld_spec (e : Entry) (i : Nat) : (e.setOld i).oldIdx = some (e.oldIdx.getD i) ∧ (e.setOld i).strip = e.strip := by
  unfold Entry.setOld
  cases h : e.oldIdx with
  | none => simp [Entry.strip]
  | some v => simp [h]

theorem places_markOld (line : List Entry) (a b : Nat) : ∀ c, places 0 ((markOld line a b).take c) = places 0 (line.take c) := by
  intro c
  refine places_congr 0 (by simp [markOld_length]) ?_
  intro i e f h1 h2
  rw [List.getElem?_take] at h1 h2
  split_ifs at h1 h2 with hc
  rw [markOld_get, h2] at h1
  simp only [Option.map_some, Option.some.injEq] at h1
  subst h1
  split_ifs
  · have := setOld_spec f i
    simp [this.1, this.2]
  · exact ⟨rfl, rfl⟩

/-- No reordering crosses the cut before place `c`. -/
def CutAt (snp : List Nat) (c : Nat) : Prop := c ∉ snp ∨ ∀ b, b + 1 = c → b ∉ snp

/-- `line` is a reordering of `M`, whose entries remember their old place. -/
structure MoveInv (M line : List Entry) (snp : List Nat) : Prop where
  perm : ∀ c, CutAt snp c → (places 0 (line.take c)).Perm (places 0 (M.take c))
  len : line.length = M.length
  moved : ∀ i e, line[i]? = some e → e.oldIdx ≠ none → i ∈ snp
  flags : ∀ i e, line[i]? = some e → (e.enter = true ∨ e.exit = true) → i ∈ snp
  lt : ∀ i ∈ snp, i < line.length

/-- Reordering a block. -/
theorem MoveInv.block {M P X X' Q : List Entry} {snp : List Nat} (h : MoveInv M (P ++ X ++ Q) snp) (hx : X'.Perm X)
    (hm : ∀ e ∈ X, e.oldIdx.isSome) : MoveInv M (P ++ X' ++ Q) (snp ++ List.range' P.length X.length) := by
  have hlen := hx.length_eq
  refine ⟨?_, ?_, ?_, ?_, ?_⟩
  · intro c hc
    have hc0 : CutAt snp c := by
      rcases hc with hc | hc
      · exact .inl fun h => hc (by simp [h])
      · exact .inr fun b hb h => hc b hb (by simp [h])
    have hcase : c ≤ P.length ∨ P.length + X.length ≤ c := by
      by_contra hcon
      rw [not_or, not_le, not_le] at hcon
      rcases hc with hc | hc
      · exact hc (by simp [List.mem_range'_1]; omega)
      · exact hc (c - 1) (by omega) (by simp [List.mem_range'_1]; omega)
    refine List.Perm.trans ?_ (h.perm c hc0)
    rcases hcase with hcase | hcase
    · rw [List.append_assoc, List.append_assoc, List.take_append_of_le_length hcase, List.take_append_of_le_length hcase]
    · rw [List.take_append, List.take_append (l₁ := P ++ X)]
      rw [List.take_of_length_le (l := P ++ X') (by simp; omega), List.take_of_length_le (l := P ++ X) (by simp; omega)]
      rw [places_append, places_append, places_append, places_append]
      have hl2 : (P ++ X').length = (P ++ X).length := by simp [hlen]
      rw [hl2]
      refine List.Perm.append_right _ (List.Perm.append_left _ ?_)
      rw [places_marked _ X hm, places_marked _ X' fun e he => hm e (hx.subset he)]
      exact hx.map _
  · have := h.len; simp only [List.length_append] at this ⊢; omega
  · intro i e he ho
    by_cases hi : i < P.length
    · have := h.moved i e (by rw [List.append_assoc, List.getElem?_append_left hi] at he ⊢; exact he) ho
      simp [this]
    · by_cases hi2 : i < P.length + X.length
      · simp [List.mem_range'_1]; omega
      · have := h.moved i e (by
          rw [List.getElem?_append_right (by simp; omega)] at he ⊢
          simp only [List.length_append, hlen] at he ⊢; exact he) ho
        simp [this]
  · intro i e he ho
    by_cases hi : i < P.length
    · have := h.flags i e (by rw [List.append_assoc, List.getElem?_append_left hi] at he ⊢; exact he) ho
      simp [this]
    · by_cases hi2 : i < P.length + X.length
      · simp [List.mem_range'_1]; omega
      · have := h.flags i e (by
          rw [List.getElem?_append_right (by simp; omega)] at he ⊢
          simp only [List.length_append, hlen] at he ⊢; exact he) ho
        simp [this]
  · intro i hi
    rcases List.mem_append.1 hi with hi | hi
    · have := h.lt i hi
      simp only [List.length_append] at this ⊢; omega
    · rw [List.mem_range'_1] at hi
      simp only [List.length_append]; omega

/-- Marking entries that need a position anyway. -/
theorem MoveInv.mark {M line : List Entry} {snp : List Nat} (h : MoveInv M line snp) (a b : Nat) (hab : ∀ i, a ≤ i → i < b → i < line.length → i ∈ snp) :
    MoveInv M (markOld line a b) snp := by
  refine ⟨?_, ?_, ?_, ?_, ?_⟩
  · intro c hc; rw [places_markOld]; exact h.perm c hc
  · rw [markOld_length]; exact h.len
  · intro i e he ho
    rw [markOld_get, Option.map_eq_some_iff] at he
    obtain ⟨f, h1, h2⟩ := he
    by_cases hi : a ≤ i ∧ i < b
    · exact hab i hi.1 hi.2 (List.getElem?_eq_some_iff.1 h1).1
    · rw [if_neg hi] at h2; subst h2; exact h.moved i f h1 ho
  · intro i e he ho
    rw [markOld_get, Option.map_eq_some_iff] at he
    obtain ⟨f, h1, h2⟩ := he
    refine h.flags i f h1 ?_
    subst h2
    split_ifs at ho
    · unfold Entry.setOld at ho; split_ifs at ho <;> exact ho
    · exact ho
  · intro i hi; rw [markOld_length]; exact h.lt i hi

theorem MoveInv.more {M line : List Entry} {snp snp' : List Nat} (h : MoveInv M line snp) (hs : ∀ i ∈ snp, i ∈ snp')
    (hl : ∀ i ∈ snp', i < line.length) : MoveInv M line snp' :=
  ⟨fun c hc => h.perm c (by
      rcases hc with hc | hc
      · exact .inl fun h => hc (hs _ h)
      · exact .inr fun b hb h => hc b hb (hs _ h)),
    h.len, fun i e he ho => hs i (h.moved i e he ho), fun i e he ho => hs i (h.flags i e he ho), hl⟩

theorem CutAt.zero (snp : List Nat) : CutAt snp 0 := .inr fun b hb => by omega

end Verif.Sweep
