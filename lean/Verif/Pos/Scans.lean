import Verif.Pos.Trace

/-!
# The scans for close neighbours (`src/position.rs`:288-333)
-/

namespace Verif.Pos
open Verif.Curve Verif.Geom Verif.Scan

/-- Output segment `o` crosses the height just after `z`. -/
def Alive (I : Input) (o : Nat) (z : ℝ) : Prop := o < I.n ∧ (I.first o).y ≤ z ∧ z < (I.second o).y

/-- What `compute_positions` may assume: the accuracy is positive, output segments do not ascend, the scan-line orders describe a west-to-east
order at every height (C57, C58), and neighbours can be compared as long as they are neighbours. -/
structure Input.Ok (I : Input) : Prop where
  acc : 0 < I.accuracy
  down : ∀ i < I.n, (I.first i).y ≤ (I.second i).y
  lines : ∀ z, ∃ L : List Nat, L.Nodup ∧ (∀ o, o ∈ L ↔ Alive I o z) ∧
    ∀ l1 o l2, L = l1 ++ o :: l2 → neighborAfter (I.maps.west o) z = l1.getLast? ∧ neighborAfter (I.maps.east o) z = l2.head?
  recs : ∀ i y o, (y, some o) ∈ I.maps.west i ∨ (y, some o) ∈ I.maps.east i → o < I.n
  cmp : ∀ z i j, Alive I i z → neighborAfter (I.maps.east i) z = some j → ∃ p ∈ (I.cmp (I.orig i) (I.orig j)).iter, z < p.hi

/-- The heights that occur in the input. -/
def Height (I : Input) (h : ℝ) : Prop :=
  (∃ i < I.n, h = (I.first i).y ∨ h = (I.second i).y) ∨
  ∃ a < I.n, ∃ b < I.n, ∃ p ∈ (I.cmp (I.orig a) (I.orig b)).iter, h = p.lo ∨ h = p.hi

theorem height_finite (I : Input) : {h | Height I h}.Finite := by
  have h1 : {h | ∃ i < I.n, h = (I.first i).y ∨ h = (I.second i).y}.Finite := by
    have : {h | ∃ i < I.n, h = (I.first i).y ∨ h = (I.second i).y} = ⋃ i ∈ Set.Iio I.n, {(I.first i).y, (I.second i).y} := by
      ext h; simp
    rw [this]
    exact (Set.finite_Iio I.n).biUnion fun i _ => by simp
  have h2 : {h | ∃ a < I.n, ∃ b < I.n, ∃ p ∈ (I.cmp (I.orig a) (I.orig b)).iter, h = p.lo ∨ h = p.hi}.Finite := by
    have : {h | ∃ a < I.n, ∃ b < I.n, ∃ p ∈ (I.cmp (I.orig a) (I.orig b)).iter, h = p.lo ∨ h = p.hi} =
        ⋃ a ∈ Set.Iio I.n, ⋃ b ∈ Set.Iio I.n, ⋃ p ∈ {p | p ∈ (I.cmp (I.orig a) (I.orig b)).iter}, {p.lo, p.hi} := by
      ext h; simp
    rw [this]
    exact (Set.finite_Iio I.n).biUnion fun a _ => (Set.finite_Iio I.n).biUnion fun b _ => (List.finite_toSet _).biUnion fun p _ => by simp
  exact h1.union h2

/-- The two scans, with the direction as a parameter. -/
noncomputable def genScan (I : Input) (y0 : ℝ) (nb : Nat → Option Nat) (cm : Nat → Nat → CurveOrder ℝ) (clo : Nat → Option ℝ) :
    ℕ → Nat → ℝ → List Nat → Option (ℝ × List Nat)
  | 0, _, _, _ => none
  | k + 1, cur, y1, scan =>
    match nb cur with
    | none => some (y1, scan)
    | some nbr =>
      match pieceAfter (cm cur nbr) y0 with
      | none => none
      | some p =>
        if p.order = .left then
          match clo cur with
          | none => some (y1, scan)
          | some h => some (min y1 (max h p.hi), scan)
        else genScan I y0 nb cm clo k nbr (min (min y1 p.hi) (I.second nbr).y) (scan ++ [nbr])

theorem westScan_gen (I : Input) (y0 : ℝ) : ∀ (k : ℕ) (cur : Nat) (y1 : ℝ) (scan : List Nat), westScan I y0 k cur y1 scan =
    genScan I y0 (fun c => neighborAfter (I.maps.west c) y0) (fun c d => I.cmp (I.orig d) (I.orig c))
      (fun c => closeAfter (I.maps.west c) (fun o => I.cmp (I.orig c) (I.orig o)) y0) k cur y1 scan := by
  intro k
  induction k with
  | zero => intro cur y1 scan; rfl
  | succ k ih => intro cur y1 scan; simp only [westScan, genScan, ih]; rfl

theorem eastScan_gen (I : Input) (y0 : ℝ) : ∀ (k : ℕ) (cur : Nat) (y1 : ℝ) (scan : List Nat), eastScan I y0 k cur y1 scan =
    genScan I y0 (fun c => neighborAfter (I.maps.east c) y0) (fun c d => I.cmp (I.orig c) (I.orig d))
      (fun c => closeAfter (I.maps.east c) (fun o => I.cmp (I.orig c) (I.orig o)) y0) k cur y1 scan := by
  intro k
  induction k with
  | zero => intro cur y1 scan; rfl
  | succ k ih => intro cur y1 scan; simp only [eastScan, genScan, ih]; rfl

/-- The list of neighbours in one direction. -/
def Follows (nb : Nat → Option Nat) : Nat → List Nat → Prop
  | c, [] => nb c = none
  | c, d :: r => nb c = some d ∧ Follows nb d r

/-- The comparison of two neighbours just after `y0` is not definite, and stays so until `y1`. -/
def Tied (y0 y1 : ℝ) (c : CurveOrder ℝ) : Prop :=
  ∃ p, pieceAfter c y0 = some p ∧ p.order ≠ .left ∧ y1 ≤ p.hi

/-- The first of two neighbours is definitely to the left just after `y0`. -/
def Apart (y0 : ℝ) (c : CurveOrder ℝ) : Prop := ∃ p, pieceAfter c y0 = some p ∧ p.order = .left

theorem Tied.mono {y0 y1 y1' : ℝ} {c : CurveOrder ℝ} (h : Tied y0 y1 c) (hle : y1' ≤ y1) : Tied y0 y1' c := by
  obtain ⟨p, a, b, d⟩ := h
  exact ⟨p, a, b, hle.trans d⟩

theorem genScan_spec (I : Input) (y0 : ℝ) (nb : Nat → Option Nat) (cm : Nat → Nat → CurveOrder ℝ) (clo : Nat → Option ℝ) (H : ℝ → Prop)
    (G : Nat → Prop) (hnb : ∀ c d, G c → nb c = some d → G d ∧ y0 < (I.second d).y ∧ H (I.second d).y)
    (hcm : ∀ c d, G c → nb c = some d → ∃ p ∈ (cm c d).iter, y0 < p.hi)
    (hH : ∀ c d, G c → nb c = some d → ∀ p ∈ (cm c d).iter, H p.hi)
    (hclo : ∀ c, G c → ∀ h, clo c = some h → H h) :
    ∀ (r : List Nat) (k : ℕ) (cur : Nat) (y1 : ℝ) (scan : List Nat), r.length < k → G cur → Follows nb cur r → H y1 → y0 < y1 →
    ∃ y1' w r', genScan I y0 nb cm clo k cur y1 scan = some (y1', scan ++ w) ∧ r = w ++ r' ∧ H y1' ∧ y0 < y1' ∧ y1' ≤ y1 ∧
      (∀ o ∈ w, y1' ≤ (I.second o).y) ∧ List.IsChain (fun a b => Tied y0 y1' (cm a b)) (cur :: w) ∧
      (∀ d ∈ r'.head?, ∀ c ∈ (cur :: w).getLast?, Apart y0 (cm c d)) := by
  intro r
  induction r with
  | nil =>
    intro k cur y1 scan hk _ hf hh hy
    obtain ⟨k, rfl⟩ : ∃ j, k = j + 1 := ⟨k - 1, by omega⟩
    simp only [Follows] at hf
    exact ⟨y1, [], [], by simp [genScan, hf], rfl, hh, hy, le_rfl, by simp, by simp, by simp⟩
  | cons d r ih =>
    intro k cur y1 scan hk hg hf hh hy
    obtain ⟨k, rfl⟩ : ∃ j, k = j + 1 := ⟨k - 1, by omega⟩
    obtain ⟨hf1, hf2⟩ := hf
    obtain ⟨p0, hp0, hlt⟩ := hcm cur d hg hf1
    cases hp : pieceAfter (cm cur d) y0 with
    | none =>
      rw [pieceAfter, List.find?_eq_none] at hp
      exact absurd hlt (by simpa using hp p0 hp0)
    | some p =>
      have hpm := List.mem_of_find?_eq_some hp
      have hpl : y0 < p.hi := by simpa using List.find?_some hp
      by_cases ho : p.order = .left
      · have hap : Apart y0 (cm cur d) := ⟨p, hp, ho⟩
        cases hc : clo cur with
        | none =>
          refine ⟨y1, [], d :: r, ?_, rfl, hh, hy, le_rfl, by simp, by simp, ?_⟩
          · simp only [genScan, hf1, hp, ho, hc, if_true, List.append_nil]
          · simpa using hap
        | some h =>
          refine ⟨min y1 (max h p.hi), [], d :: r, ?_, rfl, ?_, lt_min hy (lt_max_of_lt_right hpl), min_le_left _ _, by simp, by simp, ?_⟩
          · simp only [genScan, hf1, hp, ho, hc, if_true, List.append_nil]
          · rcases min_choice y1 (max h p.hi) with e | e <;> rw [e]
            · exact hh
            · rcases max_choice h p.hi with e | e <;> rw [e]
              · exact hclo cur hg h hc
              · exact hH cur d hg hf1 p hpm
          · simpa using hap
      · obtain ⟨g1, g2, g3⟩ := hnb cur d hg hf1
        have hH1 : H (min (min y1 p.hi) (I.second d).y) := by
          rcases min_choice (min y1 p.hi) (I.second d).y with e | e <;> rw [e]
          · rcases min_choice y1 p.hi with e | e <;> rw [e]
            · exact hh
            · exact hH cur d hg hf1 p hpm
          · exact g3
        obtain ⟨y1', w, r', a1, a2, a3, a4, a5, a6, a7, a8⟩ := ih k d (min (min y1 p.hi) (I.second d).y) (scan ++ [d]) (by simpa using hk) g1 hf2 hH1
          (lt_min (lt_min hy hpl) g2)
        refine ⟨y1', d :: w, r', ?_, by rw [a2]; rfl, a3, a4, a5.trans ((min_le_left _ _).trans (min_le_left _ _)), ?_, ?_, ?_⟩
        · simp only [genScan, hf1, hp, ho, if_false]
          rw [a1]; simp
        · intro o ho'
          rcases List.mem_cons.1 ho' with rfl | ho'
          · exact a5.trans (min_le_right _ _)
          · exact a6 o ho'
        · rw [List.isChain_cons_cons]
          exact ⟨⟨p, hp, ho, a5.trans ((min_le_left _ _).trans (min_le_right _ _))⟩, a7⟩
        · rw [List.getLast?_cons_cons]; exact a8

theorem iter_rec {recs : List (Rec ℝ)} {p : ℝ × WithTop ℝ × Option Nat} (hp : p ∈ Verif.Scan.iter recs) : (p.1, p.2.2) ∈ recs := by
  unfold Verif.Scan.iter at hp
  obtain ⟨q, hq, rfl⟩ := List.mem_map.1 hp
  exact (List.of_mem_zip hq).1

theorem close_height {I : Input} (ok : I.Ok) {c : Nat} (hc : c < I.n) {recs : List (Rec ℝ)} (hr : recs = I.maps.west c ∨ recs = I.maps.east c) {y0 h : ℝ}
    (hh : closeAfter recs (fun o => I.cmp (I.orig c) (I.orig o)) y0 = some h) : Height I h := by
  obtain ⟨_, p, hp, _, _, o, ho, q, hq, rfl, _⟩ := C59_sound_partial _ _ _ _ hh
  have := iter_rec hp
  rw [ho] at this
  have hon : o < I.n := ok.recs c p.1 o (by rcases hr with rfl | rfl <;> [left; right] <;> exact this)
  exact .inr ⟨c, hc, o, hon, q, hq, .inl rfl⟩

/-- The group that is treated together with `idx` at the height `y0`, and the height `y1` up to which it is treated. -/
theorem scans_spec {I : Input} (ok : I.Ok) {idx : Nat} {y0 : ℝ} (ha : Alive I idx y0) :
    ∃ y1 west y1' east, westScan I y0 I.n idx (I.second idx).y [idx] = some (y1, west) ∧ eastScan I y0 I.n idx y1 [] = some (y1', east) ∧
      Height I y1' ∧ y0 < y1' ∧ (∀ o ∈ west.reverse ++ east, y1' ≤ (I.second o).y) ∧ idx ∈ west.reverse ++ east ∧
      ∃ L l1 l2, L = l1 ++ (west.reverse ++ east) ++ l2 ∧ L.Nodup ∧ (∀ o, o ∈ L ↔ Alive I o y0) ∧
        List.IsChain (fun a b => Tied y0 y1' (I.cmp (I.orig a) (I.orig b))) (west.reverse ++ east) ∧
        List.IsChain (fun a b => neighborAfter (I.maps.east a) y0 = some b) (west.reverse ++ east) ∧
        (∀ d ∈ l1.getLast?, ∀ c ∈ (west.reverse ++ east).head?, Apart y0 (I.cmp (I.orig d) (I.orig c))) ∧
        (∀ d ∈ l2.head?, ∀ c ∈ (west.reverse ++ east).getLast?, Apart y0 (I.cmp (I.orig c) (I.orig d))) := by
  obtain ⟨L, hnd, hmem, hnb⟩ := ok.lines y0
  obtain ⟨l1, l2, hL⟩ := List.append_of_mem ((hmem idx).2 ha)
  have hlen : L.length ≤ I.n := by
    have : L ⊆ List.range I.n := fun o ho => List.mem_range.2 ((hmem o).1 ho).1
    simpa using (hnd.subperm this).length_le
  have alive : ∀ o ∈ L, Alive I o y0 := fun o ho => (hmem o).1 ho
  -- what follows to the west and to the east
  have fw : ∀ (l1 : List Nat) (c : Nat) (l2 : List Nat), L = l1 ++ c :: l2 → Follows (fun c => neighborAfter (I.maps.west c) y0) c l1.reverse := by
    intro l1
    induction l1 using List.reverseRecOn with
    | nil => intro c l2 h; simpa [Follows] using (hnb _ _ _ h).1
    | append_singleton l d ih =>
      intro c l2 h
      rw [List.reverse_append, List.reverse_singleton, List.singleton_append]
      refine ⟨by simpa using (hnb _ _ _ h).1, ih d (c :: l2) (by rw [h]; simp)⟩
  have fe : ∀ (l2 : List Nat) (c : Nat) (l1 : List Nat), L = l1 ++ c :: l2 → Follows (fun c => neighborAfter (I.maps.east c) y0) c l2 := by
    intro l2
    induction l2 with
    | nil => intro c l1 h; simpa [Follows] using (hnb _ _ _ h).2
    | cons d l ih =>
      intro c l1 h
      exact ⟨by simpa using (hnb _ _ _ h).2, ih d (l1 ++ [c]) (by rw [h]; simp)⟩
  -- neighbours
  have nw : ∀ c d, c ∈ L → neighborAfter (I.maps.west c) y0 = some d → d ∈ L ∧ neighborAfter (I.maps.east d) y0 = some c := by
    intro c d hc hd
    obtain ⟨u, v, e⟩ := List.append_of_mem hc
    have h1 := (hnb _ _ _ e).1
    rw [hd] at h1
    obtain ⟨u', rfl⟩ := List.getLast?_eq_some_iff.1 h1.symm
    refine ⟨by rw [e]; simp, ?_⟩
    have := (hnb u' d (c :: v) (by rw [e]; simp)).2
    simpa using this
  have ne : ∀ c d, c ∈ L → neighborAfter (I.maps.east c) y0 = some d → d ∈ L := by
    intro c d hc hd
    obtain ⟨u, v, e⟩ := List.append_of_mem hc
    have h1 := (hnb _ _ _ e).2
    rw [hd] at h1
    obtain ⟨v', rfl⟩ : ∃ v', v = d :: v' := by
      cases v with
      | nil => simp at h1
      | cons x v' => simp at h1; exact ⟨v', by rw [h1]⟩
    rw [e]; simp
  obtain ⟨y1, w, r', a1, a2, a3, a4, a5, a6, a7, a8⟩ := genScan_spec I y0 (fun c => neighborAfter (I.maps.west c) y0) (fun c d => I.cmp (I.orig d) (I.orig c))
    (fun c => closeAfter (I.maps.west c) (fun o => I.cmp (I.orig c) (I.orig o)) y0) (Height I) (· ∈ L)
    (fun c d hc hd => ⟨(nw c d hc hd).1, (alive d (nw c d hc hd).1).2.2, .inl ⟨d, (alive d (nw c d hc hd).1).1, .inr rfl⟩⟩)
    (fun c d hc hd => ok.cmp y0 d c (alive d (nw c d hc hd).1) (nw c d hc hd).2)
    (fun c d hc hd p hp => .inr ⟨d, (alive d (nw c d hc hd).1).1, c, (alive c hc).1, p, hp, .inr rfl⟩)
    (fun c hc h hh => close_height ok (alive c hc).1 (.inl rfl) hh)
    l1.reverse I.n idx (I.second idx).y [idx] (by
      have : L.length = l1.length + (l2.length + 1) := by rw [hL]; simp
      simp; omega)
    (by rw [hL]; simp) (fw l1 idx l2 hL) (.inl ⟨idx, ha.1, .inr rfl⟩) ha.2.2
  obtain ⟨y1', w', r2, b1, b2, b3, b4, b5, b6, b7, b8⟩ := genScan_spec I y0 (fun c => neighborAfter (I.maps.east c) y0) (fun c d => I.cmp (I.orig c) (I.orig d))
    (fun c => closeAfter (I.maps.east c) (fun o => I.cmp (I.orig c) (I.orig o)) y0) (Height I) (· ∈ L)
    (fun c d hc hd => ⟨ne c d hc hd, (alive d (ne c d hc hd)).2.2, .inl ⟨d, (alive d (ne c d hc hd)).1, .inr rfl⟩⟩)
    (fun c d hc hd => ok.cmp y0 c d (alive c hc) hd)
    (fun c d hc hd p hp => .inr ⟨c, (alive c hc).1, d, (alive d (ne c d hc hd)).1, p, hp, .inr rfl⟩)
    (fun c hc h hh => close_height ok (alive c hc).1 (.inr rfl) hh)
    l2 I.n idx y1 [] (by
      have : L.length = l1.length + (l2.length + 1) := by rw [hL]; simp
      omega)
    (by rw [hL]; simp) (fe l2 idx l1 hL) a3 a4
  have chain : ∀ l pre, L = pre ++ l → List.IsChain (fun a b => neighborAfter (I.maps.east a) y0 = some b) l := by
    intro l
    induction l with
    | nil => intro pre _; exact List.isChain_nil
    | cons c l ih =>
      intro pre e
      rw [List.isChain_cons]
      refine ⟨fun d hd => ?_, ih (pre ++ [c]) (by rw [e]; simp)⟩
      rw [(hnb _ _ _ e).2]; exact hd
  have hsplit : L = r'.reverse ++ (([idx] ++ w).reverse ++ ([] ++ w')) ++ r2 := by
    rw [hL, b2, show l1 = (w ++ r').reverse by rw [← a2, List.reverse_reverse]]
    simp
  refine ⟨y1, [idx] ++ w, y1', [] ++ w', (westScan_gen ..).trans a1, (eastScan_gen ..).trans b1, b3, b4, ?_, by simp, L, r'.reverse, r2, hsplit, hnd, hmem, ?_,
    (chain L [] rfl).infix ⟨r'.reverse, r2, hsplit.symm⟩, ?_, ?_⟩
  · intro o ho
    simp only [List.singleton_append, List.reverse_cons, List.append_assoc, List.nil_append, List.mem_append, List.mem_reverse, List.mem_cons] at ho
    rcases ho with ho | rfl | ho
    · exact b5.trans (a6 o ho)
    · exact b5.trans a5
    · exact b6 o ho
  · have hc1 : List.IsChain (fun a b => Tied y0 y1' (I.cmp (I.orig a) (I.orig b))) (([idx] ++ w).reverse) := by
      rw [List.isChain_reverse]
      exact a7.imp fun a b h => h.mono b5
    have hc2 : List.IsChain (fun a b => Tied y0 y1' (I.cmp (I.orig a) (I.orig b))) (idx :: w') := b7
    rw [List.singleton_append, List.reverse_cons] at hc1 ⊢
    rw [List.append_assoc]
    simp only [List.nil_append, List.singleton_append]
    rw [List.isChain_split]
    exact ⟨hc1, hc2⟩
  · intro d hd c hc
    refine a8 d (by simpa using hd) c ?_
    rw [List.head?_append, List.head?_reverse] at hc
    obtain ⟨z, hz⟩ : ∃ z, (idx :: w).getLast? = some z := ⟨_, List.getLast?_eq_some_getLast (by simp)⟩
    simp only [List.singleton_append] at hc
    rw [hz] at hc ⊢
    simpa using hc
  · intro d hd c hc
    refine b8 d hd c ?_
    simpa [List.getLast?_append, List.getLast?_cons] using hc

end Verif.Pos
