import Mathlib.Order.WithBot
import Mathlib.Data.List.Basic
import Mathlib.Data.List.Nodup

/-!
The bookkeeping of neighbours, without the details of the topology: a sweep line `L` of output segments, in which a middle part is
replaced by new ones, and for every output segment a set of records (height, neighbour).
-/

namespace Verif.Scan
set_option linter.unusedSectionVars false

variable {K : Type} [LinearOrder K]

/-- The element before position `i`. -/
def prev (L : List Nat) : Nat → Option Nat
  | 0 => none
  | i + 1 => L[i]?

/-- `v` is the value of the newest record (`none` if there is none). -/
def Cur (R : K → Option Nat → Prop) (v : Option Nat) : Prop :=
  (∃ y, R y v ∧ ∀ y' v', R y' v' → y' ≤ y) ∨ (v = none ∧ ∀ y' v', ¬ R y' v')

theorem Cur.congr {R R' : K → Option Nat → Prop} {v : Option Nat} (h : Cur R v) (hR : ∀ y v, R' y v ↔ R y v) : Cur R' v := by
  rcases h with ⟨y, h1, h2⟩ | ⟨h1, h2⟩
  · exact .inl ⟨y, (hR _ _).2 h1, fun y' v' h => h2 y' v' ((hR _ _).1 h)⟩
  · exact .inr ⟨h1, fun y' v' h => h2 y' v' ((hR _ _).1 h)⟩

/-- `n`: number of output segments; `L`: the sweep line; `W`, `E`: records of neighbours to the west and to the east; `S`, `C`:
heights at which output segments start and end; `yl`: current height; `done`: the positions processed at this height. -/
structure AInv (n : Nat) (L : List Nat) (W E : Nat → K → Option Nat → Prop) (S C : Nat → K → Prop) (yl : WithBot K) (done : Nat) :
    Prop where
  nodup : L.Nodup
  lt : ∀ o ∈ L, o < n
  wLt : ∀ o y v, W o y v → o < n ∧ ∀ w, v = some w → w < n
  eLt : ∀ o y v, E o y v → o < n ∧ ∀ w, v = some w → w < n
  sLt : ∀ o y, S o y → o < n
  cLt : ∀ o y, C o y → o < n
  wLe : ∀ o y v, W o y v → (y : WithBot K) ≤ yl
  eLe : ∀ o y v, E o y v → (y : WithBot K) ≤ yl
  sLe : ∀ o y, S o y → (y : WithBot K) ≤ yl
  wFun : ∀ o y v v', W o y v → W o y v' → v = v'
  eFun : ∀ o y v v', E o y v → E o y v' → v = v'
  wCur : ∀ i o, L[i]? = some o → Cur (W o) (prev L i)
  eCur : ∀ i o, L[i]? = some o → Cur (E o) L[i + 1]?
  wGap : ∀ i o y v, L[i]? = some o → W o y v → (y : WithBot K) = yl → i ≤ done
  eGap : ∀ i o y v, L[i]? = some o → E o y v → (y : WithBot K) = yl → i < done
  wVal : ∀ i o y v, L[i]? = some v → W o y (some v) → (y : WithBot K) = yl → i ≤ done
  eVal : ∀ i o y v, L[i]? = some v → E o y (some v) → (y : WithBot K) = yl → i ≤ done
  sGap : ∀ i o y, L[i]? = some o → S o y → (y : WithBot K) = yl → i < done
  cNot : ∀ o ∈ L, ∀ y, ¬ C o y
  sIn : ∀ o ∈ L, ∃ y, S o y
  wOk : ∀ o y v, W o y v → ((∃ ys, S o ys ∧ ys ≤ y) ∧ ∀ ye, C o ye → y < ye) ∧
    ∀ w, v = some w → (∃ ys, S w ys ∧ ys ≤ y) ∧ ∀ ye, C w ye → y < ye
  eOk : ∀ o y v, E o y v → ((∃ ys, S o ys ∧ ys ≤ y) ∧ ∀ ye, C o ye → y < ye) ∧
    ∀ w, v = some w → (∃ ys, S w ys ∧ ys ≤ y) ∧ ∀ ye, C w ye → y < ye

theorem AInv.init : AInv (K := K) 0 [] (fun _ _ _ => False) (fun _ _ _ => False) (fun _ _ => False) (fun _ _ => False) ⊥ 0 := by
  constructor <;> simp

/-- One step: `LO` is replaced by the new output segments `N`. -/
theorem AInv.step {n n' : Nat} {LA LO LB N : List Nat} {W E W' E' : Nat → K → Option Nat → Prop} {S C S' C' : Nat → K → Prop}
    {yl : WithBot K} {done : Nat} (h : AInv n (LA ++ LO ++ LB) W E S C yl done) (y : K)
    (hy : yl < y ∨ yl = y ∧ done < LA.length) (hn : n ≤ n') (hN : N.Nodup) (hNlt : ∀ o ∈ N, n ≤ o ∧ o < n')
    (hW : ∀ o y' v, W' o y' v ↔ W o y' v ∨ (y' = y ∧ ∃ i, LA.length ≤ i ∧ i ≤ LA.length + N.length ∧
      (LA ++ N ++ LB)[i]? = some o ∧ v = prev (LA ++ N ++ LB) i ∧ (v ≠ none ∨ i = LA.length + N.length)))
    (hE : ∀ o y' v, E' o y' v ↔ E o y' v ∨ (y' = y ∧ ∃ i, LA.length ≤ i + 1 ∧ i + 1 ≤ LA.length + N.length ∧
      (LA ++ N ++ LB)[i]? = some o ∧ v = (LA ++ N ++ LB)[i + 1]? ∧ (v ≠ none ∨ i + 1 = LA.length)))
    (hS : ∀ o y', S' o y' ↔ S o y' ∨ (o ∈ N ∧ y' = y))
    (hC : ∀ o y', C' o y' ↔ C o y' ∨ (o ∈ LO ∧ y' = y)) :
    AInv n' (LA ++ N ++ LB) W' E' S' C' (y : WithBot K) (LA.length + N.length) := by
  have hyl : yl ≤ y := by
    rcases hy with h | h
    · exact le_of_lt h
    · exact le_of_eq h.1
  -- the lines
  have oldA : ∀ i, i < LA.length → (LA ++ N ++ LB)[i]? = (LA ++ LO ++ LB)[i]? := by
    intro i hi
    rw [List.append_assoc, List.append_assoc, List.getElem?_append_left hi, List.getElem?_append_left hi]
  have oldB : ∀ i, LA.length + N.length ≤ i → (LA ++ N ++ LB)[i]? = (LA ++ LO ++ LB)[i - N.length + LO.length]? := by
    intro i hi
    have e : i - (LA ++ N).length = i - N.length + LO.length - (LA ++ LO).length := by
      simp only [List.length_append]; omega
    rw [List.getElem?_append_right (by simp only [List.length_append]; omega),
      List.getElem?_append_right (l₁ := LA ++ LO) (by simp only [List.length_append]; omega), e]
  have midN : ∀ i, LA.length ≤ i → i < LA.length + N.length → (LA ++ N ++ LB)[i]? = N[i - LA.length]? := by
    intro i h1 h2
    rw [List.getElem?_append_left (by simp; omega), List.getElem?_append_right h1]
  have midMem : ∀ i o, LA.length ≤ i → i < LA.length + N.length → (LA ++ N ++ LB)[i]? = some o → o ∈ N := by
    intro i o h1 h2 h3
    rw [midN i h1 h2] at h3
    exact List.mem_of_getElem? h3
  have memIdx : ∀ o ∈ N, ∃ i, LA.length ≤ i ∧ i < LA.length + N.length ∧ (LA ++ N ++ LB)[i]? = some o := by
    intro o ho
    obtain ⟨j, hj, he⟩ := List.mem_iff_getElem.1 ho
    refine ⟨LA.length + j, by omega, by omega, ?_⟩
    rw [midN _ (by omega) (by omega), Nat.add_sub_cancel_left, List.getElem?_eq_some_iff]
    exact ⟨hj, he⟩
  have ltOld : ∀ i o, (i < LA.length ∨ LA.length + N.length ≤ i) → (LA ++ N ++ LB)[i]? = some o → o < n := by
    intro i o hi ho
    apply h.lt
    rcases hi with hi | hi
    · rw [oldA i hi] at ho; exact List.mem_of_getElem? ho
    · rw [oldB i hi] at ho; exact List.mem_of_getElem? ho
  have ltAll : ∀ (i o : Nat), (LA ++ N ++ LB)[i]? = some o → o < n' := by
    intro i o ho
    by_cases h1 : i < LA.length
    · exact lt_of_lt_of_le (ltOld i o (.inl h1) ho) hn
    · by_cases h2 : LA.length + N.length ≤ i
      · exact lt_of_lt_of_le (ltOld i o (.inr h2) ho) hn
      · exact (hNlt o (midMem i o (by omega) (by omega) ho)).2
  have nd : (LA ++ N ++ LB).Nodup := by
    have h0 := h.nodup
    rw [List.append_assoc, List.nodup_append, List.nodup_append] at h0
    obtain ⟨a1, ⟨a2, a3, a4⟩, a5⟩ := h0
    rw [List.append_assoc, List.nodup_append, List.nodup_append]
    refine ⟨a1, ⟨hN, a3, ?_⟩, ?_⟩
    · intro a ha b hb hab
      have := (hNlt a ha).1
      have := h.lt b (by simp [hb])
      omega
    · intro a ha b hb hab
      rcases List.mem_append.1 hb with hb | hb
      · have := (hNlt b hb).1
        have := h.lt a (by simp [ha])
        omega
      · exact a5 a ha b (by simp [hb]) hab
  have idx : ∀ (i j o : Nat), (LA ++ N ++ LB)[i]? = some o → (LA ++ N ++ LB)[j]? = some o → i = j := by
    intro i j o h1 h2
    obtain ⟨k1, e1⟩ := List.getElem?_eq_some_iff.1 h1
    obtain ⟨k2, e2⟩ := List.getElem?_eq_some_iff.1 h2
    exact (List.Nodup.getElem_inj_iff nd).1 (e1.trans e2.symm)
  -- nothing untouched has records at height `y`
  have keyA : ∀ i o, i < LA.length → (LA ++ N ++ LB)[i]? = some o → (∀ v, i + 1 = LA.length → ¬ E o y v) := by
    intro i o hi ho v hi2 hEo
    rw [oldA i hi] at ho
    rcases hy with h1 | ⟨h1, h2⟩
    · exact absurd (h.eLe o y v hEo) (not_le.2 h1)
    · have := h.eGap i o y v ho hEo h1.symm
      omega
  have keyB : ∀ o : Nat, (LA ++ N ++ LB)[LA.length + N.length]? = some o → ∀ v, ¬ W o y v := by
    intro o ho v hWo
    rw [oldB _ (le_refl _)] at ho
    rcases hy with h1 | ⟨h1, h2⟩
    · exact absurd (h.wLe o y v hWo) (not_le.2 h1)
    · have := h.wGap _ o y v ho hWo h1.symm
      omega
  have noNewW : ∀ o y' v, o ∈ N → ¬ W o y' v := by
    intro o y' v ho hw
    have := (h.wLt o y' v hw).1
    have := (hNlt o ho).1
    omega
  have noNewE : ∀ o y' v, o ∈ N → ¬ E o y' v := by
    intro o y' v ho hw
    have := (h.eLt o y' v hw).1
    have := (hNlt o ho).1
    omega
  have wNew : ∀ i o v, LA.length ≤ i → i ≤ LA.length + N.length → (LA ++ N ++ LB)[i]? = some o → ¬ W o y v := by
    intro i o v h1 h2 h3
    by_cases h4 : i = LA.length + N.length
    · subst h4; exact keyB o h3 v
    · exact noNewW o y v (midMem i o h1 (by omega) h3)
  have eNew : ∀ i o v, LA.length ≤ i + 1 → i + 1 ≤ LA.length + N.length → (LA ++ N ++ LB)[i]? = some o → ¬ E o y v := by
    intro i o v h1 h2 h3
    by_cases h4 : i + 1 = LA.length
    · exact keyA i o (by omega) h3 v h4
    · exact noNewE o y v (midMem i o (by omega) (by omega) h3)
  have prevSome : ∀ i w, prev (LA ++ N ++ LB) i = some w → ∃ j, i = j + 1 ∧ (LA ++ N ++ LB)[j]? = some w := by
    intro i w hw
    cases i with
    | zero => simp [prev] at hw
    | succ j => exact ⟨j, rfl, hw⟩
  have startIn : ∀ (i o : Nat), (LA ++ N ++ LB)[i]? = some o → ∃ ys, S' o ys ∧ ys ≤ y := by
    intro i o ho
    by_cases hm : o ∈ N
    · exact ⟨y, (hS _ _).2 (.inr ⟨hm, rfl⟩), le_refl _⟩
    · have : o ∈ LA ++ LO ++ LB := by
        have := List.mem_of_getElem? ho
        simp only [List.mem_append] at this ⊢
        tauto
      obtain ⟨ys, h1⟩ := h.sIn o this
      exact ⟨ys, (hS _ _).2 (.inl h1), WithBot.coe_le_coe.1 (le_trans (h.sLe o ys h1) hyl)⟩
  have cNot' : ∀ o ∈ LA ++ N ++ LB, ∀ y', ¬ C' o y' := by
    intro o ho y' hc
    rw [hC] at hc
    have hnd := h.nodup
    rw [List.append_assoc, List.nodup_append, List.nodup_append] at hnd
    obtain ⟨a1, ⟨a2, a3, a4⟩, a5⟩ := hnd
    simp only [List.mem_append] at ho
    by_cases hm : o ∈ N
    · have := (hNlt o hm).1
      rcases hc with hc | ⟨hc, _⟩
      · have := h.cLt o y' hc; omega
      · have := h.lt o (by simp [hc]); omega
    · have hm' : o ∈ LA ∨ o ∈ LB := by tauto
      rcases hc with hc | ⟨hc, _⟩
      · exact h.cNot o (by simp only [List.mem_append]; tauto) y' hc
      · rcases hm' with hm' | hm'
        · exact a5 o hm' o (by simp [hc]) rfl
        · exact a4 o hc o hm' rfl
  -- old records whose segments end now
  have endW : ∀ o y' v, W o y' v → (o ∈ LO ∨ ∃ w, v = some w ∧ w ∈ LO) → y' < y := by
    intro o y' v hw hor
    have hle := h.wLe o y' v hw
    refine lt_of_le_of_ne (WithBot.coe_le_coe.1 (le_trans hle hyl)) ?_
    intro he
    subst he
    rcases hy with h1 | ⟨h1, h2⟩
    · exact absurd hle (not_le.2 h1)
    · have hix : ∀ x ∈ LO, ∃ i, LA.length ≤ i ∧ (LA ++ LO ++ LB)[i]? = some x := by
        intro x hx
        obtain ⟨j, hj, e⟩ := List.mem_iff_getElem.1 hx
        refine ⟨LA.length + j, by omega, ?_⟩
        rw [List.getElem?_append_left (by simp; omega), List.getElem?_append_right (by omega)]
        rw [Nat.add_sub_cancel_left, List.getElem?_eq_some_iff]; exact ⟨hj, e⟩
      rcases hor with hor | ⟨w, rfl, hor⟩
      · obtain ⟨i, k1, k2⟩ := hix o hor
        have := h.wGap i o y' v k2 hw h1.symm; omega
      · obtain ⟨i, k1, k2⟩ := hix w hor
        have := h.wVal i o y' w k2 hw h1.symm; omega
  have endE : ∀ o y' v, E o y' v → (o ∈ LO ∨ ∃ w, v = some w ∧ w ∈ LO) → y' < y := by
    intro o y' v hw hor
    have hle := h.eLe o y' v hw
    refine lt_of_le_of_ne (WithBot.coe_le_coe.1 (le_trans hle hyl)) ?_
    intro he
    subst he
    rcases hy with h1 | ⟨h1, h2⟩
    · exact absurd hle (not_le.2 h1)
    · have hix : ∀ x ∈ LO, ∃ i, LA.length ≤ i ∧ (LA ++ LO ++ LB)[i]? = some x := by
        intro x hx
        obtain ⟨j, hj, e⟩ := List.mem_iff_getElem.1 hx
        refine ⟨LA.length + j, by omega, ?_⟩
        rw [List.getElem?_append_left (by simp; omega), List.getElem?_append_right (by omega)]
        rw [Nat.add_sub_cancel_left, List.getElem?_eq_some_iff]; exact ⟨hj, e⟩
      rcases hor with hor | ⟨w, rfl, hor⟩
      · obtain ⟨i, k1, k2⟩ := hix o hor
        have := h.eGap i o y' v k2 hw h1.symm; omega
      · obtain ⟨i, k1, k2⟩ := hix w hor
        have := h.eVal i o y' w k2 hw h1.symm; omega
  -- positions of old elements that occur in old records at height `y`
  have old_small : ∀ (i o : Nat), (LA ++ N ++ LB)[i]? = some o → o < n →
      ∃ j, (LA ++ LO ++ LB)[j]? = some o ∧ (j < LA.length → i = j) := by
    intro i o ho hlt
    by_cases h1 : i < LA.length
    · exact ⟨i, by rw [← oldA i h1]; exact ho, fun _ => rfl⟩
    · by_cases h2 : LA.length + N.length ≤ i
      · exact ⟨_, by rw [← oldB i h2]; exact ho, fun h3 => by omega⟩
      · have := (hNlt o (midMem i o (by omega) (by omega) ho)).1
        omega
  have eqy : ∀ y' : K, (y' : WithBot K) = (y : WithBot K) → y' = y := fun y' h => WithBot.coe_injective h
  constructor
  case nodup => exact nd
  case lt => intro o ho; obtain ⟨i, hi, e⟩ := List.mem_iff_getElem.1 ho; exact ltAll i o (List.getElem?_eq_some_iff.2 ⟨hi, e⟩)
  case wLt =>
    intro o y' v hw
    rcases (hW o y' v).1 hw with hw | ⟨_, i, _, _, h3, h4, _⟩
    · obtain ⟨h1, h2⟩ := h.wLt o y' v hw
      exact ⟨by omega, fun w hv => by have := h2 w hv; omega⟩
    · refine ⟨ltAll i o h3, fun w hv => ?_⟩
      obtain ⟨j, _, hj⟩ := prevSome i w (by rw [← h4, hv])
      exact ltAll j w hj
  case eLt =>
    intro o y' v hw
    rcases (hE o y' v).1 hw with hw | ⟨_, i, _, _, h3, h4, _⟩
    · obtain ⟨h1, h2⟩ := h.eLt o y' v hw
      exact ⟨by omega, fun w hv => by have := h2 w hv; omega⟩
    · exact ⟨ltAll i o h3, fun w hv => ltAll (i + 1) w (by rw [← h4, hv])⟩
  case sLt =>
    intro o y' hs
    rcases (hS o y').1 hs with hs | ⟨hs, _⟩
    · have := h.sLt o y' hs; omega
    · exact (hNlt o hs).2
  case cLt =>
    intro o y' hs
    rcases (hC o y').1 hs with hs | ⟨hs, _⟩
    · have := h.cLt o y' hs; omega
    · have := h.lt o (by simp [hs]); omega
  case wLe =>
    intro o y' v hw
    rcases (hW o y' v).1 hw with hw | ⟨rfl, _⟩
    · exact le_trans (h.wLe o y' v hw) hyl
    · exact le_refl _
  case eLe =>
    intro o y' v hw
    rcases (hE o y' v).1 hw with hw | ⟨rfl, _⟩
    · exact le_trans (h.eLe o y' v hw) hyl
    · exact le_refl _
  case sLe =>
    intro o y' hs
    rcases (hS o y').1 hs with hs | ⟨_, rfl⟩
    · exact le_trans (h.sLe o y' hs) hyl
    · exact le_refl _
  case wFun =>
    intro o y' v v' h1 h2
    rcases (hW o y' v).1 h1 with h1 | ⟨rfl, i, a1, a2, a3, a4, _⟩
    · rcases (hW o y' v').1 h2 with h2 | ⟨rfl, i, a1, a2, a3, a4, _⟩
      · exact h.wFun o y' v v' h1 h2
      · exact absurd h1 (wNew i o v a1 a2 a3)
    · rcases (hW o y' v').1 h2 with h2 | ⟨_, j, b1, b2, b3, b4, _⟩
      · exact absurd h2 (wNew i o v' a1 a2 a3)
      · rw [a4, b4, idx i j o a3 b3]
  case eFun =>
    intro o y' v v' h1 h2
    rcases (hE o y' v).1 h1 with h1 | ⟨rfl, i, a1, a2, a3, a4, _⟩
    · rcases (hE o y' v').1 h2 with h2 | ⟨rfl, i, a1, a2, a3, a4, _⟩
      · exact h.eFun o y' v v' h1 h2
      · exact absurd h1 (eNew i o v a1 a2 a3)
    · rcases (hE o y' v').1 h2 with h2 | ⟨_, j, b1, b2, b3, b4, _⟩
      · exact absurd h2 (eNew i o v' a1 a2 a3)
      · rw [a4, b4, idx i j o a3 b3]
  case wCur =>
    intro i o ho
    by_cases h1 : LA.length ≤ i ∧ i ≤ LA.length + N.length
    · by_cases h2 : prev (LA ++ N ++ LB) i ≠ none ∨ i = LA.length + N.length
      · refine .inl ⟨y, (hW _ _ _).2 (.inr ⟨rfl, i, h1.1, h1.2, ho, rfl, h2⟩), ?_⟩
        intro y' v' hw
        rcases (hW _ _ _).1 hw with hw | ⟨rfl, _⟩
        · exact WithBot.coe_le_coe.1 (le_trans (h.wLe _ _ _ hw) hyl)
        · exact le_refl _
      · push Not at h2
        refine .inr ⟨h2.1, ?_⟩
        intro y' v' hw
        have hm := midMem i o h1.1 (by omega) ho
        rcases (hW _ _ _).1 hw with hw | ⟨rfl, j, b1, b2, b3, b4, b5⟩
        · exact noNewW o y' v' hm hw
        · rw [← idx i j o ho b3] at b4 b5
          rw [h2.1] at b4
          rcases b5 with b5 | b5
          · exact b5 b4
          · exact h2.2 b5
    · have hnot : ∀ y' v, W' o y' v ↔ W o y' v := by
        intro y' v
        rw [hW]
        constructor
        · rintro (hw | ⟨_, j, b1, b2, b3, _⟩)
          · exact hw
          · have := idx i j o ho b3; omega
        · exact .inl
      by_cases h2 : i < LA.length
      · have := h.wCur i o (by rw [← oldA i h2]; exact ho)
        have e : prev (LA ++ N ++ LB) i = prev (LA ++ LO ++ LB) i := by
          cases i with
          | zero => rfl
          | succ j => exact oldA j (by omega)
        rw [e]
        exact this.congr hnot
      · have h3 : LA.length + N.length < i := by omega
        have := h.wCur _ o (by rw [← oldB i (by omega)]; exact ho)
        have e : prev (LA ++ N ++ LB) i = prev (LA ++ LO ++ LB) (i - N.length + LO.length) := by
          cases i with
          | zero => omega
          | succ j =>
            have : j + 1 - N.length + LO.length = (j - N.length + LO.length) + 1 := by omega
            rw [this]; exact oldB j (by omega)
        rw [e]
        exact this.congr hnot
  case eCur =>
    intro i o ho
    by_cases h1 : LA.length ≤ i + 1 ∧ i + 1 ≤ LA.length + N.length
    · by_cases h2 : (LA ++ N ++ LB)[i + 1]? ≠ none ∨ i + 1 = LA.length
      · refine .inl ⟨y, (hE _ _ _).2 (.inr ⟨rfl, i, h1.1, h1.2, ho, rfl, h2⟩), ?_⟩
        intro y' v' hw
        rcases (hE _ _ _).1 hw with hw | ⟨rfl, _⟩
        · exact WithBot.coe_le_coe.1 (le_trans (h.eLe _ _ _ hw) hyl)
        · exact le_refl _
      · push Not at h2
        refine .inr ⟨h2.1, ?_⟩
        intro y' v' hw
        have hm := midMem i o (by omega) (by omega) ho
        rcases (hE _ _ _).1 hw with hw | ⟨rfl, j, b1, b2, b3, b4, b5⟩
        · exact noNewE o y' v' hm hw
        · rw [← idx i j o ho b3] at b4 b5
          rw [h2.1] at b4
          rcases b5 with b5 | b5
          · exact b5 b4
          · exact h2.2 b5
    · have hnot : ∀ y' v, E' o y' v ↔ E o y' v := by
        intro y' v
        rw [hE]
        constructor
        · rintro (hw | ⟨_, j, b1, b2, b3, _⟩)
          · exact hw
          · have := idx i j o ho b3; omega
        · exact .inl
      by_cases h2 : i < LA.length
      · have := h.eCur i o (by rw [← oldA i h2]; exact ho)
        rw [oldA (i + 1) (by omega)]
        exact this.congr hnot
      · have := h.eCur _ o (by rw [← oldB i (by omega)]; exact ho)
        rw [oldB (i + 1) (by omega)]
        have e : i + 1 - N.length + LO.length = i - N.length + LO.length + 1 := by omega
        rw [e]
        exact this.congr hnot
  case wGap =>
    intro i o y' v ho hw he
    have he := eqy y' he
    subst he
    rcases (hW _ _ _).1 hw with hw | ⟨_, j, b1, b2, b3, _⟩
    · have hylt : yl = y' := by
        rcases hy with h1 | h1
        · exact absurd (h.wLe _ _ _ hw) (not_le.2 h1)
        · exact h1.1
      obtain ⟨j, hj1, hj2⟩ := old_small i o ho (h.wLt _ _ _ hw).1
      have := h.wGap j o y' v hj1 hw hylt.symm
      rcases hy with h1 | h1
      · rw [hylt] at h1; exact absurd h1 (lt_irrefl _)
      · have := hj2 (by omega); omega
    · have := idx i j o ho b3; omega
  case eGap =>
    intro i o y' v ho hw he
    have he := eqy y' he
    subst he
    rcases (hE _ _ _).1 hw with hw | ⟨_, j, b1, b2, b3, _⟩
    · have hylt : yl = y' := by
        rcases hy with h1 | h1
        · exact absurd (h.eLe _ _ _ hw) (not_le.2 h1)
        · exact h1.1
      obtain ⟨j, hj1, hj2⟩ := old_small i o ho (h.eLt _ _ _ hw).1
      have := h.eGap j o y' v hj1 hw hylt.symm
      rcases hy with h1 | h1
      · rw [hylt] at h1; exact absurd h1 (lt_irrefl _)
      · have := hj2 (by omega); omega
    · have := idx i j o ho b3; omega
  case wVal =>
    intro i o y' v ho hw he
    have he := eqy y' he
    subst he
    rcases (hW _ _ _).1 hw with hw | ⟨_, j, b1, b2, b3, b4, _⟩
    · have hylt : yl = y' := by
        rcases hy with h1 | h1
        · exact absurd (h.wLe _ _ _ hw) (not_le.2 h1)
        · exact h1.1
      obtain ⟨j, hj1, hj2⟩ := old_small i v ho ((h.wLt _ _ _ hw).2 v rfl)
      have := h.wVal j o y' v hj1 hw hylt.symm
      rcases hy with h1 | h1
      · rw [hylt] at h1; exact absurd h1 (lt_irrefl _)
      · have := hj2 (by omega); omega
    · obtain ⟨k, hk1, hk2⟩ := prevSome j v b4.symm
      have := idx i k v ho hk2; omega
  case eVal =>
    intro i o y' v ho hw he
    have he := eqy y' he
    subst he
    rcases (hE _ _ _).1 hw with hw | ⟨_, j, b1, b2, b3, b4, _⟩
    · have hylt : yl = y' := by
        rcases hy with h1 | h1
        · exact absurd (h.eLe _ _ _ hw) (not_le.2 h1)
        · exact h1.1
      obtain ⟨j, hj1, hj2⟩ := old_small i v ho ((h.eLt _ _ _ hw).2 v rfl)
      have := h.eVal j o y' v hj1 hw hylt.symm
      rcases hy with h1 | h1
      · rw [hylt] at h1; exact absurd h1 (lt_irrefl _)
      · have := hj2 (by omega); omega
    · have := idx i (j + 1) v ho b4.symm; omega
  case sGap =>
    intro i o y' ho hs he
    have he := eqy y' he
    subst he
    rcases (hS _ _).1 hs with hs | ⟨hm, _⟩
    · have hylt : yl = y' := by
        rcases hy with h1 | h1
        · exact absurd (h.sLe _ _ hs) (not_le.2 h1)
        · exact h1.1
      obtain ⟨j, hj1, hj2⟩ := old_small i o ho (h.sLt _ _ hs)
      have := h.sGap j o y' hj1 hs hylt.symm
      rcases hy with h1 | h1
      · rw [hylt] at h1; exact absurd h1 (lt_irrefl _)
      · have := hj2 (by omega); omega
    · obtain ⟨j, b1, b2, b3⟩ := memIdx o hm
      have := idx i j o ho b3; omega
  case cNot => exact cNot'
  case sIn =>
    intro o ho
    obtain ⟨i, hi, e⟩ := List.mem_iff_getElem.1 ho
    obtain ⟨ys, h1, _⟩ := startIn i o (List.getElem?_eq_some_iff.2 ⟨hi, e⟩)
    exact ⟨ys, h1⟩
  case wOk =>
    intro o y' v hw
    rcases (hW _ _ _).1 hw with hw | ⟨rfl, j, b1, b2, b3, b4, _⟩
    · obtain ⟨⟨⟨ys, p1, p2⟩, p3⟩, p4⟩ := h.wOk o y' v hw
      refine ⟨⟨⟨ys, (hS _ _).2 (.inl p1), p2⟩, ?_⟩, ?_⟩
      · intro ye hc
        rcases (hC _ _).1 hc with hc | ⟨hc, rfl⟩
        · exact p3 ye hc
        · exact endW o y' v hw (.inl hc)
      · intro w hv
        obtain ⟨⟨ys, q1, q2⟩, q3⟩ := p4 w hv
        refine ⟨⟨ys, (hS _ _).2 (.inl q1), q2⟩, ?_⟩
        intro ye hc
        rcases (hC _ _).1 hc with hc | ⟨hc, rfl⟩
        · exact q3 ye hc
        · exact endW o y' v hw (.inr ⟨w, hv, hc⟩)
    · refine ⟨⟨startIn j o b3, fun ye hc => absurd hc (cNot' o (List.mem_of_getElem? b3) ye)⟩, ?_⟩
      intro w hv
      obtain ⟨k, _, hk⟩ := prevSome j w (by rw [← b4, hv])
      exact ⟨startIn k w hk, fun ye hc => absurd hc (cNot' w (List.mem_of_getElem? hk) ye)⟩
  case eOk =>
    intro o y' v hw
    rcases (hE _ _ _).1 hw with hw | ⟨rfl, j, b1, b2, b3, b4, _⟩
    · obtain ⟨⟨⟨ys, p1, p2⟩, p3⟩, p4⟩ := h.eOk o y' v hw
      refine ⟨⟨⟨ys, (hS _ _).2 (.inl p1), p2⟩, ?_⟩, ?_⟩
      · intro ye hc
        rcases (hC _ _).1 hc with hc | ⟨hc, rfl⟩
        · exact p3 ye hc
        · exact endE o y' v hw (.inl hc)
      · intro w hv
        obtain ⟨⟨ys, q1, q2⟩, q3⟩ := p4 w hv
        refine ⟨⟨ys, (hS _ _).2 (.inl q1), q2⟩, ?_⟩
        intro ye hc
        rcases (hC _ _).1 hc with hc | ⟨hc, rfl⟩
        · exact q3 ye hc
        · exact endE o y' v hw (.inr ⟨w, hv, hc⟩)
    · refine ⟨⟨startIn j o b3, fun ye hc => absurd hc (cNot' o (List.mem_of_getElem? b3) ye)⟩, ?_⟩
      intro w hv
      have hk : (LA ++ N ++ LB)[j + 1]? = some w := by rw [← b4, hv]
      exact ⟨startIn _ w hk, fun ye hc => absurd hc (cNot' w (List.mem_of_getElem? hk) ye)⟩

end Verif.Scan
