import Verif.BinOp.Model
import Mathlib.Tactic.Linarith
import Mathlib.Tactic.Positivity
import Mathlib.Tactic.NormNum
import Mathlib.Algebra.Ring.Int.Parity

/-! # Properties C19–C22: boolean operations and winding numbers -/

namespace Verif.BinOp

/-! ## Specification -/

/-- A point with this winding number is in the shape. -/
def InShape : FillRule → Int → Prop
  | .evenOdd, w => Odd w
  | .nonZero, w => w ≠ 0

/-- Set-theoretic meaning of the operations. -/
def Combine : Op → Prop → Prop → Prop
  | .union, a, b => a ∨ b
  | .intersection, a, b => a ∧ b
  | .difference, a, b => a ∧ ¬ b
  | .xor, a, b => (a ∧ ¬ b) ∨ (b ∧ ¬ a)

/-! ## C19 -/

theorem insideOne_iff (r : FillRule) (w : Int) : insideOne r w = true ↔ InShape r w := by
  cases r with
  | evenOdd =>
    simp only [insideOne, InShape, bne_iff_ne, Int.odd_iff]
    rcases lt_or_ge w 0 with h | h
    · have e : Int.tmod w 2 = -((-w) % 2) := by
        conv => lhs; rw [show w = -(-w) by omega, Int.neg_tmod, Int.tmod_eq_emod_of_nonneg (by omega)]
      rw [e]; omega
    · rw [Int.tmod_eq_emod_of_nonneg h]; omega
  | nonZero => simp [insideOne, InShape]

/-- **C19.** The predicate handed to the contour extraction is the set-theoretic combination of
"inside A" and "inside B", for all integer winding numbers (negative ones included). -/
theorem C19_inside (r : FillRule) (op : Op) (a b : Int) :
    inside r op ⟨a, b⟩ = true ↔ Combine op (InShape r a) (InShape r b) := by
  have ha := insideOne_iff r a
  have hb := insideOne_iff r b
  cases op <;> simp only [inside, Combine, ← ha, ← hb] <;>
    cases insideOne r a <;> cases insideOne r b <;> simp

/-- Non-vacuity: `-3` is inside for even-odd, `-2` is not. -/
example : inside .evenOdd .union ⟨-3, 0⟩ = true ∧ inside .evenOdd .union ⟨-2, 4⟩ = false ∧
    inside .nonZero .difference ⟨-2, 0⟩ = true := by decide

/-! ## C20 -/

/-- **C20.** Swapping the operands of a symmetric operation changes nothing. -/
theorem C20_comm (r : FillRule) (op : Op) (h : op ≠ .difference) (a b : Int) :
    inside r op ⟨a, b⟩ = inside r op ⟨b, a⟩ := by
  cases op <;> simp only [inside] at * <;>
    cases insideOne r a <;> cases insideOne r b <;> simp_all

/-- **C20.** xor = union minus intersection. -/
theorem C20_xor (r : FillRule) (w : BinaryWinding) :
    inside r .xor w = (inside r .union w && !inside r .intersection w) := by
  simp only [inside]
  cases insideOne r w.shapeA <;> cases insideOne r w.shapeB <;> rfl

/-- **C20.** Difference and intersection partition the first shape: a point of A is in exactly one of
them, and a point outside A is in neither. -/
theorem C20_partition (r : FillRule) (a b : Int) :
    (inside r .difference ⟨a, b⟩ = true ∨ inside r .intersection ⟨a, b⟩ = true ↔ InShape r a) ∧
    ¬ (inside r .difference ⟨a, b⟩ = true ∧ inside r .intersection ⟨a, b⟩ = true) := by
  simp only [C19_inside, Combine]
  tauto

/-- **C20.** xor is the disjoint union of the two differences. -/
theorem C20_xor_differences (r : FillRule) (a b : Int) :
    (inside r .xor ⟨a, b⟩ = true ↔
      inside r .difference ⟨a, b⟩ = true ∨ inside r .difference ⟨b, a⟩ = true) ∧
    ¬ (inside r .difference ⟨a, b⟩ = true ∧ inside r .difference ⟨b, a⟩ = true) := by
  simp only [C19_inside, Combine]
  tauto

/-- **C20.** The unbounded region (winding numbers zero) is never inside. -/
theorem C20_outside (r : FillRule) (op : Op) : inside r op BinaryWinding.zero = false := by
  cases r <;> cases op <;> decide

/-- **C20.** Reversing the direction of either shape (negating its winding numbers) changes nothing. -/
theorem C20_reverse (r : FillRule) (op : Op) (a b : Int) :
    inside r op ⟨-a, b⟩ = inside r op ⟨a, b⟩ ∧ inside r op ⟨a, -b⟩ = inside r op ⟨a, b⟩ := by
  have h : ∀ w, insideOne r (-w) = insideOne r w := by
    intro w
    rw [Bool.eq_iff_iff, insideOne_iff, insideOne_iff]
    cases r <;> simp [InShape]
  constructor <;> cases op <;> simp [inside, h]

/-- **C20.** Operating a shape with itself: union and intersection are idempotent, difference and xor
are empty. -/
theorem C20_self (r : FillRule) (a : Int) :
    (inside r .union ⟨a, a⟩ = true ↔ InShape r a) ∧ (inside r .intersection ⟨a, a⟩ = true ↔ InShape r a) ∧
    inside r .difference ⟨a, a⟩ = false ∧ inside r .xor ⟨a, a⟩ = false := by
  have ha := insideOne_iff r a
  simp only [inside, ← ha]
  cases insideOne r a <;> simp

/-! ## C21 -/

/-- The four coordinates of a rectangle. -/
def Rect.coords (r : Rect) : List F := [r.x0, r.y0, r.x1, r.y1]

/-- `x` is the least non-NaN value of the list, NaN if there is none. -/
theorem min_eq (a b : F) : (a.min b = .nan ↔ a = .nan ∧ b = .nan) ∧ (a.min b = .ninf ↔ a = .ninf ∨ b = .ninf) ∧
    (a.min b = .pinf ↔ (a = .pinf ∧ (b = .pinf ∨ b = .nan)) ∨ (a = .nan ∧ b = .pinf)) := by
  cases a <;> cases b <;> simp [F.min]

theorem max_eq (a b : F) : (a.max b = .nan ↔ a = .nan ∧ b = .nan) ∧ (a.max b = .pinf ↔ a = .pinf ∨ b = .pinf) ∧
    (a.max b = .ninf ↔ (a = .ninf ∧ (b = .ninf ∨ b = .nan)) ∨ (a = .nan ∧ b = .ninf)) := by
  cases a <;> cases b <;> simp [F.max]

theorem min_mem (a b : F) : a.min b = a ∨ a.min b = b := by
  cases a <;> cases b <;> simp only [F.min, true_or, or_true]
  split <;> simp

theorem max_mem (a b : F) : a.max b = a ∨ a.max b = b := by
  cases a <;> cases b <;> simp only [F.max, true_or, or_true]
  split <;> simp

/-- helper: `m` is a lower bound of `c` unless `c` is NaN or `+∞`. -/
def LeF (m c : F) : Prop :=
  (c = .ninf → m = .ninf) ∧ ∀ q, c = .fin q → m = .ninf ∨ ∃ l, m = .fin l ∧ l ≤ q

theorem LeF.trans {a b c : F} (h1 : LeF a b) (h2 : LeF b c) : LeF a c := by
  refine ⟨fun h => h1.1 (h2.1 h), fun q hq => ?_⟩
  rcases h2.2 q hq with h | ⟨l, h, hl⟩
  · exact .inl (h1.1 h)
  · rcases h1.2 l h with h | ⟨l', h, hl'⟩
    · exact .inl h
    · exact .inr ⟨l', h, le_trans hl' hl⟩

theorem LeF.fin {l c : ℚ} (h : LeF (.fin l) (.fin c)) : l ≤ c := by
  rcases h.2 c rfl with h | ⟨l', h, hl⟩
  · simp at h
  · simp at h; rw [h]; exact hl

theorem leF_min (a b : F) : LeF (a.min b) a ∧ LeF (a.min b) b := by
  cases a <;> cases b <;> simp [F.min, LeF]
  split <;> constructor <;> linarith

/-- helper: `m` is an upper bound of `c` unless `c` is NaN or `-∞`. -/
def GeF (m c : F) : Prop :=
  (c = .pinf → m = .pinf) ∧ ∀ q, c = .fin q → m = .pinf ∨ ∃ l, m = .fin l ∧ q ≤ l

theorem GeF.trans {a b c : F} (h1 : GeF a b) (h2 : GeF b c) : GeF a c := by
  refine ⟨fun h => h1.1 (h2.1 h), fun q hq => ?_⟩
  rcases h2.2 q hq with h | ⟨l, h, hl⟩
  · exact .inl (h1.1 h)
  · rcases h1.2 l h with h | ⟨l', h, hl'⟩
    · exact .inl h
    · exact .inr ⟨l', h, le_trans hl hl'⟩

theorem GeF.fin {l c : ℚ} (h : GeF (.fin l) (.fin c)) : c ≤ l := by
  rcases h.2 c rfl with h | ⟨l', h, hl⟩
  · simp at h
  · simp at h; rw [h]; exact hl

theorem geF_max (a b : F) : GeF (a.max b) a ∧ GeF (a.max b) b := by
  cases a <;> cases b <;> simp [F.max, GeF]
  split <;> constructor <;> linarith

/-- **C21 (infinity).** `binary_op` reports `Infinity` iff the combined bounding box has an infinite
coordinate. -/
theorem C21_infinity (a b : Rect) :
    chooseEps a b = .error .infinity ↔ ∃ c ∈ (a.union b).coords, c = .pinf ∨ c = .ninf := by
  generalize hr : a.union b = r
  obtain ⟨x0, y0, x1, y1⟩ := r
  simp only [chooseEps, hr, Rect.minX, Rect.maxX, Rect.minY, Rect.maxY, Rect.coords]
  have hinf : ∀ f : F, f.isInfinite = true ↔ f = .pinf ∨ f = .ninf := by
    intro f; cases f <;> simp [F.isInfinite]
  constructor
  · intro h
    split at h
    · rename_i hc
      simp only [Bool.or_eq_true, hinf] at hc
      simp only [(min_eq _ _).2.1, (min_eq _ _).2.2, (max_eq _ _).2.1, (max_eq _ _).2.2,
        (min_eq _ _).1, (max_eq _ _).1] at hc
      simp only [List.mem_cons, List.not_mem_nil, or_false, exists_eq_or_imp, exists_eq_left]
      tauto
    · split at h <;> simp at h
  · intro h
    rw [if_pos]
    simp only [Bool.or_eq_true, hinf]
    simp only [(min_eq _ _).2.1, (min_eq _ _).2.2, (max_eq _ _).2.1, (max_eq _ _).2.2,
      (min_eq _ _).1, (max_eq _ _).1]
    simp only [List.mem_cons, List.not_mem_nil, or_false, exists_eq_or_imp, exists_eq_left] at h
    tauto

/-- **C21 (NaN, what the code does).** `binary_op` reports `NaN` only if *every* coordinate of the
combined bounding box is NaN (and then it does). -/
theorem C21_nan_partial (a b : Rect) :
    chooseEps a b = .error .nan ↔ ∀ c ∈ (a.union b).coords, c = .nan := by
  generalize hr : a.union b = r
  obtain ⟨x0, y0, x1, y1⟩ := r
  simp only [chooseEps, hr, Rect.minX, Rect.maxX, Rect.minY, Rect.maxY, Rect.coords]
  have hnan : ∀ f : F, f.isNan = true ↔ f = .nan := by
    intro f; cases f <;> simp [F.isNan]
  constructor
  · intro h
    split at h
    · simp at h
    · split at h
      · rename_i hc
        simp only [Bool.or_eq_true, hnan, (min_eq _ _).1, (max_eq _ _).1] at hc
        simp only [List.mem_cons, List.not_mem_nil, or_false, forall_eq_or_imp, forall_eq]
        tauto
      · simp at h
  · intro h
    simp only [List.mem_cons, List.not_mem_nil, or_false, forall_eq_or_imp, forall_eq] at h
    obtain ⟨rfl, rfl, rfl, rfl⟩ := h
    rfl

/-- **C21 (NaN, violated part).** A box with NaN heights is accepted: the comment "if there was any NaN
in the input, it should have propagated to the min and max" is wrong. -/
theorem C21_nan_missed : ∃ a b : Rect, (∃ c ∈ (a.union b).coords, c = .nan) ∧
    ∃ e, chooseEps a b = .ok e := by
  refine ⟨⟨.fin 0, .nan, .fin 1, .nan⟩, ⟨.fin 0, .nan, .fin 1, .nan⟩, ⟨.nan, ?_, rfl⟩, _, rfl⟩
  simp [Rect.coords, Rect.union, F.min]

/-- **C21 (tolerance).** When accepted, the tolerance is finite, at least `1e-6` and at least 2^-46
(64 machine epsilons) relative to every finite coordinate of the box; and it is no larger than
needed: it is `1e-6` or exactly 2^-46 times some coordinate's magnitude. -/
theorem C21_tolerance (a b : Rect) (e : F) (h : chooseEps a b = .ok e) :
    ∃ q : ℚ, e = .fin q ∧ absEps ≤ q ∧ (∀ c, .fin c ∈ (a.union b).coords → |c| * relEps ≤ q) ∧
      (q = absEps ∨ ∃ c, .fin c ∈ (a.union b).coords ∧ q = |c| * relEps) := by
  have hninf : ¬ ∃ c ∈ (a.union b).coords, c = .pinf ∨ c = .ninf := by
    rw [← C21_infinity, h]; simp
  have hnn : ¬ ∀ c ∈ (a.union b).coords, c = .nan := by
    rw [← C21_nan_partial, h]; simp
  generalize hr : a.union b = r at *
  have key : ∀ lo hi : F, (∃ l, lo = .fin l ∧ .fin l ∈ r.coords) → (∃ l, hi = .fin l ∧ .fin l ∈ r.coords) →
      (∀ c, .fin c ∈ r.coords → ∀ l, lo = .fin l → l ≤ c) →
      (∀ c, .fin c ∈ r.coords → ∀ l, hi = .fin l → c ≤ l) →
      e = ((lo.abs.max hi.abs).mulPos relEps).max (.fin absEps) →
      ∃ q : ℚ, e = .fin q ∧ absEps ≤ q ∧ (∀ c, .fin c ∈ r.coords → |c| * relEps ≤ q) ∧
      (q = absEps ∨ ∃ c, .fin c ∈ r.coords ∧ q = |c| * relEps) := by
    rintro lo hi ⟨l, rfl, hl⟩ ⟨u, rfl, hu⟩ h1 h2 he
    have hpos : (0:ℚ) < relEps := by norm_num [relEps]
    have habs : ∀ q : ℚ, (if 0 ≤ q then q else -q) = |q| := by
      intro q; split
      · rw [abs_of_nonneg (by assumption)]
      · rw [abs_of_neg (by linarith)]
    simp only [F.abs, F.max, F.mulPos, habs] at he
    have hm : (if |l| ≤ |u| then |u| else |l|) = max |l| |u| := by
      rw [max_def]
    rw [hm] at he
    have hm2 : (if max |l| |u| * relEps ≤ absEps then absEps else max |l| |u| * relEps) =
        max (max |l| |u| * relEps) absEps := (max_def _ _).symm
    rw [hm2] at he
    refine ⟨_, he, le_max_right _ _, ?_, ?_⟩
    · intro c hc
      have h3 := h1 c hc l rfl
      have h4 := h2 c hc u rfl
      have h5 : |c| ≤ max |l| |u| := by
        rw [abs_le]
        constructor
        · have := neg_abs_le l
          have := le_max_left |l| |u|
          linarith
        · have := le_abs_self u
          have := le_max_right |l| |u|
          linarith
      exact le_trans (mul_le_mul_of_nonneg_right h5 (le_of_lt hpos)) (le_max_left _ _)
    · rcases le_total (max |l| |u| * relEps) absEps with h6 | h6
      · exact .inl (max_eq_right h6)
      · right
        rw [max_eq_left h6]
        rcases le_total |l| |u| with h7 | h7
        · exact ⟨u, hu, by rw [max_eq_right h7]⟩
        · exact ⟨l, hl, by rw [max_eq_left h7]⟩
  apply key (r.minX.min r.minY) (r.maxX.max r.maxY)
  all_goals
    obtain ⟨x0, y0, x1, y1⟩ := r
    simp only [Rect.coords, List.mem_cons, List.not_mem_nil, or_false, exists_eq_or_imp,
      exists_eq_left, forall_eq_or_imp, forall_eq] at hninf hnn
    simp only [Rect.minX, Rect.maxX, Rect.minY, Rect.maxY, Rect.coords, List.mem_cons,
      List.not_mem_nil, or_false]
  · clear key h hr
    have hn : ¬ (x0.min x1).min (y0.min y1) = .nan := by
      simp only [(min_eq _ _).1]; tauto
    generalize hm : (x0.min x1).min (y0.min y1) = m at *
    have hmem : m = x0 ∨ m = y0 ∨ m = x1 ∨ m = y1 := by
      rcases min_mem (x0.min x1) (y0.min y1) with e | e <;> rcases min_mem x0 x1 with e1 | e1 <;>
        rcases min_mem y0 y1 with e2 | e2 <;> simp_all
    cases m with
    | fin q => exact ⟨q, rfl, hmem⟩
    | nan => exact absurd rfl hn
    | pinf => exact absurd (by rcases hmem with e | e | e | e <;> simp [← e]) hninf
    | ninf => exact absurd (by rcases hmem with e | e | e | e <;> simp [← e]) hninf
  · clear key h hr
    have hn : ¬ (x0.max x1).max (y0.max y1) = .nan := by
      simp only [(max_eq _ _).1]; tauto
    generalize hm : (x0.max x1).max (y0.max y1) = m at *
    have hmem : m = x0 ∨ m = y0 ∨ m = x1 ∨ m = y1 := by
      rcases max_mem (x0.max x1) (y0.max y1) with e | e <;> rcases max_mem x0 x1 with e1 | e1 <;>
        rcases max_mem y0 y1 with e2 | e2 <;> simp_all
    cases m with
    | fin q => exact ⟨q, rfl, hmem⟩
    | nan => exact absurd rfl hn
    | pinf => exact absurd (by rcases hmem with e | e | e | e <;> simp [← e]) hninf
    | ninf => exact absurd (by rcases hmem with e | e | e | e <;> simp [← e]) hninf
  · clear key h hr
    intro c hc l hl
    have t1 := leF_min (x0.min x1) (y0.min y1)
    have t2 := leF_min x0 x1
    have t3 := leF_min y0 y1
    rw [hl] at t1
    rcases hc with rfl | rfl | rfl | rfl
    · exact (t1.1.trans t2.1).fin
    · exact (t1.2.trans t3.1).fin
    · exact (t1.1.trans t2.2).fin
    · exact (t1.2.trans t3.2).fin
  · clear key h hr
    intro c hc l hl
    have t1 := geF_max (x0.max x1) (y0.max y1)
    have t2 := geF_max x0 x1
    have t3 := geF_max y0 y1
    rw [hl] at t1
    rcases hc with rfl | rfl | rfl | rfl
    · exact (t1.1.trans t2.1).fin
    · exact (t1.2.trans t3.1).fin
    · exact (t1.1.trans t2.2).fin
    · exact (t1.2.trans t3.2).fin
  · simp only [chooseEps, hr] at h
    split at h
    · simp at h
    · split at h
      · simp at h
      · simpa [Rect.minX, Rect.maxX, Rect.minY, Rect.maxY] using h.symm

/-- Non-vacuity of `C21_tolerance`. -/
example : ∃ e, chooseEps ⟨.fin 0, .fin 0, .fin 100, .fin 100⟩ ⟨.fin (-5), .fin 0, .fin 3, .fin 4⟩ = .ok e := by
  exact ⟨_, rfl⟩

/-! ## C22 -/

/-- **C22.** Winding numbers with `+` form a commutative group (so the order in which contributions
are accumulated is irrelevant), and `+=` is `+`. -/
theorem C22_group :
    (∀ a b : BinaryWinding, a.add b = b.add a) ∧
    (∀ a b c : BinaryWinding, (a.add b).add c = a.add (b.add c)) ∧
    (∀ a : BinaryWinding, a.add .zero = a) ∧
    (∀ a : BinaryWinding, ∃ b, a.add b = .zero) ∧
    (∀ a b : BinaryWinding, a.addAssign b = a.add b) := by
  refine ⟨?_, ?_, ?_, ?_, ?_⟩
  · rintro ⟨a, b⟩ ⟨c, d⟩; simp [BinaryWinding.add]; omega
  · rintro ⟨a, b⟩ ⟨c, d⟩ ⟨e, f⟩; simp [BinaryWinding.add]; omega
  · rintro ⟨a, b⟩; simp [BinaryWinding.add, BinaryWinding.zero]
  · rintro ⟨a, b⟩; exact ⟨⟨-a, -b⟩, by simp [BinaryWinding.add, BinaryWinding.zero]⟩
  · intro a b; rfl

/-- **C22.** A segment contributes ±1, by direction, to its own shape and nothing to the other; the two
directions cancel. -/
theorem C22_single (positive : Bool) :
    (BinaryWinding.single true positive).shapeA = singleI32 positive ∧
    (BinaryWinding.single true positive).shapeB = 0 ∧
    (BinaryWinding.single false positive).shapeA = 0 ∧
    (BinaryWinding.single false positive).shapeB = singleI32 positive ∧
    singleI32 true = 1 ∧ singleI32 false = -1 ∧
    ∀ tag, (BinaryWinding.single tag positive).add (BinaryWinding.single tag !positive) = .zero := by
  cases positive <;> refine ⟨rfl, rfl, rfl, rfl, rfl, rfl, ?_⟩ <;> intro tag <;> cases tag <;> rfl

/-- **C22.** The accumulated winding number of any list of segments counts, for each shape separately,
its positively minus its negatively directed segments. -/
theorem C22_accumulate (segs : List (Bool × Bool)) :
    let w := segs.foldl (fun (acc : BinaryWinding) s => acc.addAssign (BinaryWinding.single s.1 s.2)) BinaryWinding.zero
    w.shapeA = (segs.countP (fun s => s.1 && s.2) : Int) - segs.countP (fun s => s.1 && !s.2) ∧
    w.shapeB = (segs.countP (fun s => !s.1 && s.2) : Int) - segs.countP (fun s => !s.1 && !s.2) := by
  suffices ∀ (segs : List (Bool × Bool)) (acc : BinaryWinding),
      (segs.foldl (fun (acc : BinaryWinding) s => acc.addAssign (BinaryWinding.single s.1 s.2)) acc).shapeA =
        acc.shapeA + ((segs.countP (fun s => s.1 && s.2) : Int) - segs.countP (fun s => s.1 && !s.2)) ∧
      (segs.foldl (fun (acc : BinaryWinding) s => acc.addAssign (BinaryWinding.single s.1 s.2)) acc).shapeB =
        acc.shapeB + ((segs.countP (fun s => !s.1 && s.2) : Int) - segs.countP (fun s => !s.1 && !s.2)) by
    have := this segs .zero
    simpa [BinaryWinding.zero] using this
  intro segs
  induction segs with
  | nil => intro acc; simp
  | cons s segs ih =>
    intro acc
    obtain ⟨t, p⟩ := s
    simp only [List.foldl_cons, List.countP_cons]
    obtain ⟨h1, h2⟩ := ih (acc.addAssign (BinaryWinding.single t p))
    rw [h1, h2]
    cases t <;> cases p <;> simp [BinaryWinding.addAssign, BinaryWinding.add, BinaryWinding.single] <;> omega

end Verif.BinOp
