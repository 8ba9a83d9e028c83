import Verif.Topo.Events

/-! The exact arrangement of the half-segments around each point, and how output segments are numbered. -/

namespace Verif.Topo
open Verif.Range
set_option linter.unusedSectionVars false

variable {K : Type} [LinearOrder K] {W : Type} [AddCommGroup W]

/-- The region west of output segment `i` is the region east of its scan-west neighbour. -/
def WestOk (t : Topo K W) (i : Nat) : Prop := (t.winding i).cw = eastOf t (t.scanWest i)

/-- The output segments starting at a point: `m, ..., m+d-1` go down, `m+d, ..., m+d+g-1` go right. -/
structure Blk where
  m : Nat
  d : Nat
  g : Nat

def Blk.downs (b : Blk) : List Nat := List.range' b.m b.d
def Blk.flats (b : Blk) : List Nat := List.range' (b.m + b.d) b.g

def firsts (l : List Nat) : List Half := l.map fun i => ⟨i, true⟩
def seconds (l : List Nat) : List Half := l.map fun i => ⟨i, false⟩

/-- The half-segments around a point in clockwise order (seen with `y` pointing down): those going right,
those going down from right to left, those coming from the left, those coming from above from left to right. -/
def ringList (b : Blk) (hin ups : List Nat) : List Half :=
  (firsts b.flats).reverse ++ ((firsts b.downs).reverse ++ (seconds hin ++ seconds ups))

/-- The horizontal pieces that end at point `p`: those that started at the point before. -/
def hIn (B : Nat → Blk) : Nat → List Nat
  | 0 => []
  | p + 1 => (B p).flats

structure Shape (t : Topo K W) (B : Nat → Blk) : Prop where
  m0 : (B 0).m = 0
  next : ∀ p < t.points.length, (B (p + 1)).m = (B p).m + (B p).d + (B p).g
  last : t.n = (B t.points.length).m
  ring : ∀ p < t.points.length, ∃ ups, Ring t.nb (ringList (B p) (hIn B p) ups) ∧
    ∀ h, h ∈ ringList (B p) (hIn B p) ups ↔ t.pointIdx h = some p
  down : ∀ p < t.points.length, ∀ i ∈ (B p).downs, ∀ q, t.pointIdx ⟨i, false⟩ = some q →
    ∀ a b, t.points[p]? = some a → t.points[q]? = some b → a.2 < b.2
  flat : ∀ p, p + 1 < t.points.length → (B p).flats ≠ [] →
    ∀ a b, t.points[p]? = some a → t.points[p + 1]? = some b → a.2 = b.2
  westD : ∀ p < t.points.length, ∀ i, (B p).m < i → i < (B p).m + (B p).d → t.scanWest i = some (i - 1)
  westG : ∀ p < t.points.length, ∀ i ∈ (B p).flats, t.scanWest i = t.scanWest ((B p).m + (B p).d) ∧
    WestOk t ((B p).m + (B p).d)
  /-- scan neighbours are not horizontal -/
  westDown : ∀ j < t.n, ∀ i, t.scanWest j = some i → ∃ p < t.points.length, i ∈ (B p).downs

/-- The horizontals that start at the last point. -/
def lastG (t : Topo K W) (B : Nat → Blk) : List Nat := hIn B t.points.length

theorem shape_init : Shape (Topo.init : Topo K W) (fun _ => ⟨0, 0, 0⟩) := by
  constructor <;> simp [Topo.init]

theorem Shape.blk_lt {t : Topo K W} {B : Nat → Blk} (h : Shape t B) (p : Nat) (hp : p < t.points.length) :
    (B p).m + (B p).d + (B p).g ≤ t.n := by
  have mono : ∀ k, p + 1 + k ≤ t.points.length → (B (p + 1)).m ≤ (B (p + 1 + k)).m := by
    intro k
    induction k with
    | zero => intro _; exact le_refl _
    | succ k ih =>
      intro hk
      have h1 := ih (by omega)
      have h2 := h.next (p + 1 + k) (by omega)
      have : p + 1 + (k + 1) = p + 1 + k + 1 := by omega
      rw [this]; omega
  have h1 := mono (t.points.length - (p + 1)) (by omega)
  have h2 : p + 1 + (t.points.length - (p + 1)) = t.points.length := by omega
  rw [h2] at h1
  have h3 := h.next p hp
  have h4 := h.last
  omega

theorem mem_flats (b : Blk) (i : Nat) : i ∈ b.flats ↔ b.m + b.d ≤ i ∧ i < b.m + b.d + b.g := by
  unfold Blk.flats; rw [List.mem_range'_1]
theorem mem_downs (b : Blk) (i : Nat) : i ∈ b.downs ↔ b.m ≤ i ∧ i < b.m + b.d := by
  unfold Blk.downs; rw [List.mem_range'_1]

theorem mem_firsts (l : List Nat) (h : Half) : h ∈ firsts l ↔ h.idx ∈ l ∧ h.first = true := by
  unfold firsts
  rw [List.mem_map]
  constructor
  · rintro ⟨i, hi, rfl⟩; exact ⟨hi, rfl⟩
  · rintro ⟨h1, h2⟩
    obtain ⟨i, b⟩ := h
    simp only at h2; subst h2
    exact ⟨i, h1, rfl⟩
theorem mem_seconds (l : List Nat) (h : Half) : h ∈ seconds l ↔ h.idx ∈ l ∧ h.first = false := by
  unfold seconds
  rw [List.mem_map]
  constructor
  · rintro ⟨i, hi, rfl⟩; exact ⟨hi, rfl⟩
  · rintro ⟨h1, h2⟩
    obtain ⟨i, b⟩ := h
    simp only at h2; subst h2
    exact ⟨i, h1, rfl⟩

theorem mem_ringList (b : Blk) (hin ups : List Nat) (h : Half) : h ∈ ringList b hin ups ↔
    (h.first = true ∧ b.m ≤ h.idx ∧ h.idx < b.m + b.d + b.g) ∨ (h.first = false ∧ (h.idx ∈ hin ∨ h.idx ∈ ups)) := by
  unfold ringList
  simp only [List.mem_append, List.mem_reverse, mem_firsts, mem_seconds, mem_flats, mem_downs]
  constructor
  · rintro (⟨h1, h2⟩ | ⟨h1, h2⟩ | ⟨h1, h2⟩ | ⟨h1, h2⟩)
    · left; exact ⟨h2, by omega, by omega⟩
    · left; exact ⟨h2, by omega, by omega⟩
    · right; exact ⟨h2, .inl h1⟩
    · right; exact ⟨h2, .inr h1⟩
  · rintro (⟨h1, h2, h3⟩ | ⟨h1, h2 | h2⟩)
    · by_cases q : h.idx < b.m + b.d
      · right; left; exact ⟨⟨h2, q⟩, h1⟩
      · left; exact ⟨⟨by omega, h3⟩, h1⟩
    · right; right; left; exact ⟨h2, h1⟩
    · right; right; right; exact ⟨h2, h1⟩

/-- An output segment of block `p` starts at point `p`. -/
theorem Shape.first_pt {t : Topo K W} {B : Nat → Blk} (h : Shape t B) (p : Nat) (hp : p < t.points.length) (i : Nat) :
    t.pointIdx ⟨i, true⟩ = some p ↔ (B p).m ≤ i ∧ i < (B p).m + (B p).d + (B p).g := by
  obtain ⟨ups, _, h2⟩ := h.ring p hp
  rw [← h2, mem_ringList]
  simp

/-- A horizontal piece ends at the next point. -/
theorem Shape.flat_pt {t : Topo K W} {B : Nat → Blk} (h : Shape t B) (p : Nat) (hp : p + 1 < t.points.length) (i : Nat)
    (hi : i ∈ (B p).flats) : t.pointIdx ⟨i, false⟩ = some (p + 1) := by
  obtain ⟨ups, _, h2⟩ := h.ring (p + 1) hp
  rw [← h2, mem_ringList]
  right
  exact ⟨rfl, .inl hi⟩

/-- Every output segment starts in some block. -/
theorem Shape.exists_blk {single : Nat → Bool → W} {t : Topo K W} {B : Nat → Blk} (h : Shape t B) (hg : Good single t)
    (i : Nat) (hi : i < t.n) : ∃ p < t.points.length, t.pointIdx ⟨i, true⟩ = some p ∧ (i ∈ (B p).downs ∨ i ∈ (B p).flats) := by
  obtain ⟨p, hp⟩ := Option.isSome_iff_exists.1 (hg.firstSome i hi)
  have hl := (hg.ptLt _ _ hp).1
  refine ⟨p, hl, hp, ?_⟩
  rw [h.first_pt p hl] at hp
  rw [mem_downs, mem_flats]; omega

/-- Between ranges, open output segments go down. -/
theorem Shape.open_down {single : Nat → Bool → W} {t : Topo K W} {B : Nat → Blk} (h : Shape t B) (h2 : lastG t B = [])
    (hg : Good single t) (i a : Nat) (hi : i ∈ t.openSegs a) : ∃ p < t.points.length, i ∈ (B p).downs := by
  obtain ⟨k1, _, k3⟩ := (hg.openIff i a).1 hi
  obtain ⟨p, hp, _, hd | hf⟩ := h.exists_blk hg i k1
  · exact ⟨p, hp, hd⟩
  · exfalso
    by_cases hl : p + 1 < t.points.length
    · rw [h.flat_pt p hl i hf] at k3; simp at k3
    · have : p + 1 = t.points.length := by omega
      unfold lastG at h2
      rw [← this] at h2
      simp only [hIn] at h2
      rw [h2] at hf; simp at hf

theorem Shape.step {single : Nat → Bool → W} {t t' : Topo K W} {B : Nat → Blk} (h : Shape t B) (hg : Good single t)
    {x y : K} {ha us : List Nat} {hOf oOf : Nat → Nat} {base : Nat → List Nat} {ds gs : List (Nat × Bool)}
    {sw : Option Nat} {w w' v : W} {fD fG : Nat → Nat}
    (R : PointResult single x y ha us hOf oOf base ds gs t t' sw w w' v fD fG)
    (hlast : ha.map hOf = lastG t B)
    (hflat : ∀ a ∈ ha, ∃ p c, t.pointIdx ⟨hOf a, true⟩ = some p ∧ t.points[p]? = some (c, y))
    (hus : ∀ a ∈ us, ∃ p b, t.pointIdx ⟨oOf a, true⟩ = some p ∧ t.points[p]? = some b ∧ b.2 < y)
    (hwest : w' = eastOf t' (((List.range' t.n ds.length).getLast?).or sw))
    (hsw : ∀ i, sw = some i → ∃ p < t.points.length, i ∈ (B p).downs) :
    ∃ B', Shape t' B' ∧ lastG t' B' = List.range' (t.n + ds.length) gs.length ∧
      ∀ i, ((List.range' t.n ds.length).getLast?).or sw = some i → ∃ p < t'.points.length, i ∈ (B' p).downs := by
  have hlen : t'.points.length = t.points.length + 1 := by rw [R.points]; simp
  let B' : Nat → Blk := fun p =>
    if p = t.points.length then ⟨t.n, ds.length, gs.length⟩
    else if p = t.points.length + 1 then ⟨t'.n, 0, 0⟩ else B p
  have hB1 : B' t.points.length = ⟨t.n, ds.length, gs.length⟩ := by simp [B']
  have hB2 : B' (t.points.length + 1) = ⟨t'.n, 0, 0⟩ := by simp [B']
  have hB0 : ∀ p < t.points.length, B' p = B p := by
    intro p hp
    have h1 : p ≠ t.points.length := by omega
    have h2 : p ≠ t.points.length + 1 := by omega
    simp [B', h1, h2]
  have hIn0 : ∀ p ≤ t.points.length, hIn B' p = hIn B p := by
    intro p hp
    cases p with
    | zero => rfl
    | succ p => simp only [hIn]; rw [hB0 p (by omega)]
  have pts_old : ∀ (p : Nat), p < t.points.length → t'.points[p]? = t.points[p]? := by
    intro p hp
    rw [R.points, List.getElem?_append_left hp]
  have hptlen : t'.points[t.points.length]? = some (x, y) := by rw [R.points]; simp
  have east_stable : ∀ j, (∀ i, j = some i → i < t.n) → eastOf t' j = eastOf t j := by
    intro j hj
    cases j with
    | none => rfl
    | some i => simp only [eastOf]; rw [R.winding_old i (hj i rfl)]
  have hn := R.n_eq
  have oldDown : ∀ i, (∃ p < t.points.length, i ∈ (B p).downs) → ∃ p < t'.points.length, i ∈ (B' p).downs := by
    rintro i ⟨p, h1, h2⟩
    exact ⟨p, by omega, by rw [hB0 p h1]; exact h2⟩
  have newDown : ∀ i, t.n ≤ i → i < t.n + ds.length → ∃ p < t'.points.length, i ∈ (B' p).downs := by
    intro i h1 h2
    exact ⟨t.points.length, by omega, by rw [hB1, mem_downs]; exact ⟨h1, h2⟩⟩
  have swDown : ∀ i, ((List.range' t.n ds.length).getLast?).or sw = some i → ∃ p < t'.points.length, i ∈ (B' p).downs := by
    intro i hi
    cases hq : (List.range' t.n ds.length).getLast? with
    | none => rw [hq] at hi; exact oldDown i (hsw i (by simpa using hi))
    | some z =>
      rw [hq] at hi
      have hz : z = i := by simpa using hi
      have := List.mem_of_getLast? hq
      rw [List.mem_range'_1, hz] at this
      exact newDown i this.1 this.2
  refine ⟨B', ?_, ?_, swDown⟩
  swap
  · unfold lastG; rw [hlen]; simp only [hIn]; rw [hB1]; rfl
  constructor
  case m0 =>
    by_cases h0 : t.points.length = 0
    · rw [← h0, hB1, h.last, h0]; exact h.m0
    · rw [hB0 0 (by omega)]; exact h.m0
  case next =>
    intro p hp
    rw [hlen] at hp
    by_cases h1 : p = t.points.length
    · subst h1; rw [hB1, hB2]; simp only; omega
    · rw [hB0 p (by omega)]
      by_cases h2 : p + 1 = t.points.length
      · rw [h2, hB1]; simp only; rw [h.last, ← h2]; exact h.next p (by omega)
      · rw [hB0 (p + 1) (by omega)]; exact h.next p (by omega)
  case last => rw [hlen, hB2]
  case ring =>
    intro p hp
    rw [hlen] at hp
    by_cases h1 : p = t.points.length
    · subst h1
      refine ⟨us.map oOf, ?_⟩
      have e : ringList (B' t.points.length) (hIn B' t.points.length) (us.map oOf) =
          (((List.range' (t.n + ds.length) gs.length).map fun i => (⟨i, true⟩ : Half)).reverse ++
          (((List.range' t.n ds.length).map fun i => (⟨i, true⟩ : Half)).reverse ++
          ((ha.map fun a => (⟨hOf a, false⟩ : Half)) ++ us.map fun a => (⟨oOf a, false⟩ : Half)))) := by
        unfold ringList
        rw [hB1, hIn0 _ (le_refl _)]
        have : hIn B t.points.length = ha.map hOf := hlast.symm
        rw [this]
        simp only [firsts, seconds, Blk.flats, Blk.downs, List.map_map]
        rfl
      rw [e]
      exact ⟨R.ring_new, R.mem_new⟩
    · have hp' : p < t.points.length := by omega
      obtain ⟨ups, r1, r2⟩ := h.ring p hp'
      rw [hB0 p hp', hIn0 p (by omega)]
      refine ⟨ups, r1.congr (fun a ha' => R.nb_old a p ((r2 a).1 ha')), ?_⟩
      intro a
      constructor
      · intro hm; exact R.pidx_old _ _ ((r2 a).1 hm)
      · intro hm
        rw [r2]
        by_cases q1 : a.idx < t.n
        · have hnot : t'.pointIdx a ≠ some t.points.length := by rw [hm]; simpa using h1
          by_cases q2 : (∀ s ∈ ha, a ≠ ⟨hOf s, false⟩) ∧ (∀ s ∈ us, a ≠ ⟨oOf s, false⟩)
          · rw [R.pidx_rest a q1 q2.1 q2.2] at hm; exact hm
          · exfalso
            rw [not_and_or] at q2
            rcases q2 with q2 | q2
            · push Not at q2
              obtain ⟨s, hs, rfl⟩ := q2
              exact hnot (R.pidx_h s hs)
            · push Not at q2
              obtain ⟨s, hs, rfl⟩ := q2
              exact hnot (R.pidx_u s hs)
        · have hlt : a.idx < t'.n := (R.good.ptLt a p hm).2
          have := R.pidx_new a.idx (by omega) hlt
          obtain ⟨ai, ab⟩ := a
          cases ab
          · rw [this.2] at hm; simp at hm
          · rw [this.1] at hm; simp at hm; omega
  case down =>
    intro p hp i hi q hq a b hpa hqb
    rw [hlen] at hp
    by_cases h1 : p = t.points.length
    · subst h1
      rw [hB1, mem_downs] at hi
      have := (R.pidx_new i (by simpa using hi.1) (by simp only at hi; omega)).2
      rw [this] at hq; simp at hq
    · have hp' : p < t.points.length := by omega
      rw [hB0 p hp'] at hi
      have hpt : t.pointIdx ⟨i, true⟩ = some p := (h.first_pt p hp' i).2 (by
        rw [mem_downs] at hi; omega)
      have hin : i < t.n := (hg.ptLt _ _ hpt).2
      rw [pts_old p hp'] at hpa
      cases hc : t.pointIdx ⟨i, false⟩ with
      | some q' =>
        have e1 := R.pidx_old _ _ hc
        rw [hq] at e1
        have e1 : q = q' := by simpa using e1
        subst e1
        rw [pts_old q (hg.ptLt _ _ hc).1] at hqb
        exact h.down p hp' i hi q hc a b hpa hqb
      | none =>
        by_cases q2 : (∀ s ∈ ha, (⟨i, false⟩ : Half) ≠ ⟨hOf s, false⟩) ∧ (∀ s ∈ us, (⟨i, false⟩ : Half) ≠ ⟨oOf s, false⟩)
        · rw [R.pidx_rest _ hin q2.1 q2.2, hc] at hq; simp at hq
        · rw [not_and_or] at q2
          rcases q2 with q2 | q2
          · -- a horizontal is not a down
            exfalso
            push Not at q2
            obtain ⟨s, hs, he⟩ := q2
            have hi' : i ∈ lastG t B := by
              rw [← hlast]
              have : i = hOf s := by simpa using he
              rw [this]; exact List.mem_map_of_mem hs
            unfold lastG at hi'
            cases hL : t.points.length with
            | zero => omega
            | succ k =>
              rw [hL] at hi'
              simp only [hIn] at hi'
              have hpk : t.pointIdx ⟨i, true⟩ = some k := (h.first_pt k (by omega) i).2 (by
                rw [mem_flats] at hi'; omega)
              rw [hpt] at hpk
              have : p = k := by simpa using hpk
              subst this
              rw [mem_flats] at hi'; rw [mem_downs] at hi
              omega
          · push Not at q2
            obtain ⟨s, hs, he⟩ := q2
            have hi' : i = oOf s := by simpa using he
            have hqq := R.pidx_u s hs
            rw [← hi', hq] at hqq
            have hqq : q = t.points.length := by simpa using hqq
            rw [hqq, hptlen] at hqb
            have hb : b = (x, y) := by simpa using hqb.symm
            obtain ⟨p', b', k1, k2, k3⟩ := hus s hs
            rw [← hi', hpt] at k1
            have : p = p' := by simpa using k1
            subst this
            rw [hpa] at k2
            have : a = b' := by simpa using k2
            rw [this, hb]; exact k3
  case flat =>
    intro p hp hne a b hpa hpb
    rw [hlen] at hp
    have hp' : p < t.points.length := by omega
    rw [hB0 p hp'] at hne
    rw [pts_old p hp'] at hpa
    by_cases h1 : p + 1 = t.points.length
    · rw [h1, hptlen] at hpb
      have hb : b = (x, y) := by simpa using hpb.symm
      have hl : lastG t B = (B p).flats := by unfold lastG; rw [← h1]; rfl
      rw [← hl, ← hlast] at hne
      obtain ⟨i, hi⟩ := List.exists_mem_of_ne_nil _ hne
      obtain ⟨s, hs, rfl⟩ := List.mem_map.1 hi
      obtain ⟨p', c, k1, k2⟩ := hflat s hs
      rw [hlast, hl, mem_flats] at hi
      have := (h.first_pt p hp' (hOf s)).2 (by omega)
      rw [k1] at this
      have : p' = p := by simpa using this
      subst this
      rw [hpa] at k2
      have : a = (c, y) := by simpa using k2
      rw [this, hb]
    · rw [pts_old (p + 1) (by omega)] at hpb
      exact h.flat p (by omega) hne a b hpa hpb
  case westD =>
    intro p hp i h1 h2
    rw [hlen] at hp
    by_cases hpe : p = t.points.length
    · subst hpe
      rw [hB1] at h1 h2
      simp only at h1 h2
      rw [R.west_d i (by omega) h2, if_neg (by omega)]
    · have hp' : p < t.points.length := by omega
      rw [hB0 p hp'] at h1 h2
      have := h.blk_lt p hp'
      rw [R.west_old i (by omega)]
      exact h.westD p hp' i h1 h2
  case westG =>
    intro p hp i hi
    rw [hlen] at hp
    by_cases hpe : p = t.points.length
    · subst hpe
      rw [hB1] at hi ⊢
      rw [mem_flats] at hi
      simp only at hi ⊢
      rw [R.west_g i (by omega) (by omega), R.west_g (t.n + ds.length) (by omega) (by omega)]
      refine ⟨rfl, ?_⟩
      unfold WestOk
      rw [R.west_g (t.n + ds.length) (by omega) (by omega), ← hwest]
      have hl := R.lineG
      cases hgl : gs.length with
      | zero => omega
      | succ k =>
        rw [hgl, List.range'_succ] at hl
        exact hl.1
    · have hp' : p < t.points.length := by omega
      rw [hB0 p hp'] at hi ⊢
      have hb := h.blk_lt p hp'
      have hi' := hi
      rw [mem_flats] at hi'
      obtain ⟨q1, q2⟩ := h.westG p hp' i hi
      rw [R.west_old i (by omega), R.west_old _ (by omega)]
      refine ⟨q1, ?_⟩
      unfold WestOk at *
      rw [R.winding_old _ (by omega), R.west_old _ (by omega), q2, east_stable]
      intro j hj
      have := hg.west _ (by omega) j hj
      omega
  case westDown =>
    intro j hj i hi
    by_cases h1 : j < t.n
    · rw [R.west_old j h1] at hi
      exact oldDown i (h.westDown j h1 i hi)
    · by_cases h2 : j < t.n + ds.length
      · rw [R.west_d j (by omega) h2] at hi
        by_cases h3 : j = t.n
        · rw [if_pos h3] at hi; exact oldDown i (hsw i hi)
        · rw [if_neg h3] at hi
          have : j - 1 = i := by simpa using hi
          exact newDown i (by omega) (by omega)
      · rw [R.west_g j (by omega) hj] at hi
        exact swDown i hi

end Verif.Topo
