import Verif.Merge.Bundle

/-! The whole loop of `merge_coincident`. -/

namespace Verif.Merge
open Verif.Topo
set_option linter.unusedSectionVars false

variable {K : Type} [LinearOrder K] {W : Type} [AddCommGroup W] [DecidableEq W]

/-- What `merge_coincident` looks for, apart from horizontal segments: `c` is the recorded left neighbour of `i`, the two share
both end points, are not horizontal, and their input segments are close between their ends. -/
structure Coincident (close : Nat → Nat → K → K → Bool) (t : Topo K W) (c i : Nat) : Prop where
  west : t.scanWest i = some c
  start : t.pointIdx ⟨i, true⟩ = t.pointIdx ⟨c, true⟩
  stop : t.pointIdx ⟨i, false⟩ = t.pointIdx ⟨c, false⟩
  close : ∃ a b, Runs t i a b ∧ a.2 ≠ b.2 ∧ close (t.origSeg i) (t.origSeg c) a.2 b.2 = true

/-- `k` is merged into `k - 1`: they are coincident, and `k - 1` has not itself been merged into `k - 2`. -/
def Paired (close : Nat → Nat → K → K → Bool) (t : Topo K W) : Nat → Prop
  | 0 => False
  | k + 1 => Coincident close t k (k + 1) ∧ ¬ Paired close t k

/-- Neighbours in a ring remain neighbours when others are removed. -/
theorem ring_filter_adj {nb nb' : Half → Nbrs} {L : List Half} {P : Half → Bool} (h : Ring nb L)
    (h' : Ring nb' (L.filter P)) {a b : Half} (ha : a ∈ L) (hab : (nb a).cw = b) (pa : P a = true) (pb : P b = true) :
    (nb' a).cw = b := by
  obtain ⟨A, B, rfl⟩ := List.append_of_mem ha
  have h1 : Ring nb (a :: (B ++ A)) := h.rotate
  rw [List.filter_append, List.filter_cons_of_pos pa] at h'
  have h2 : Ring nb' (a :: (B.filter P ++ A.filter P)) := h'.rotate
  rw [← List.filter_append] at h2
  have e1 := h1.head_cw.1
  rw [hab] at e1
  rw [h2.head_cw.1]
  cases hM : B ++ A with
  | nil => rw [hM] at e1; simp at e1; simp [e1]
  | cons c M =>
    rw [hM] at e1
    have : c = b := by simpa using e1.symm
    subst this
    rw [List.filter_cons_of_pos pb]; rfl

/-- What is known about the topology before merging. -/
structure Ctx (single : Nat → Bool → W) (close : Nat → Nat → K → K → Bool) (t : Topo K W) (B : Nat → Blk)
    (U : Nat → List Nat) : Prop where
  good : Good single t
  shape : Shape t B
  last : lastG t B = []
  ring : ∀ p < t.points.length, Ring t.nb (ringList (B p) (hIn B p) (U p)) ∧
    ∀ h, h ∈ ringList (B p) (hIn B p) (U p) ↔ t.pointIdx h = some p
  ends : ∀ i < t.n, ∃ q, t.pointIdx ⟨i, false⟩ = some q
  fit : ∀ h p, t.pointIdx h = some p → t.windingCw h = t.windingCcw (t.nb h).cw
  endAdj : ∀ c i, i < t.n → Coincident close t c i → (t.nb ⟨c, false⟩).cw = ⟨i, false⟩

def LL (B : Nat → Blk) (U : Nat → List Nat) (p : Nat) : List Half := ringList (B p) (hIn B p) (U p)

section
variable {single : Nat → Bool → W} {close : Nat → Nat → K → K → Bool} {t0 : Topo K W} {B : Nat → Blk} {U : Nat → List Nat}

theorem Ctx.geo (C : Ctx single close t0 B U) : Geo t0 (LL B U) := by
  refine ⟨fun p hp => (C.ring p hp).1.1, fun p hp => (C.ring p hp).2, ?_, C.good.ptLt⟩
  intro i hi
  obtain ⟨p, hp⟩ := Option.isSome_iff_exists.1 (C.good.firstSome i hi)
  obtain ⟨q, hq⟩ := C.ends i hi
  exact ⟨p, q, hp, hq, C.good.order i p q hp hq⟩

theorem Ctx.filter_all (C : Ctx single close t0 B U) (p : Nat) (hp : p < t0.points.length) :
    (LL B U p).filter (live t0) = LL B U p := by
  rw [List.filter_eq_self]
  intro h hm
  have := (C.good.ptLt h p (((C.ring p hp).2 h).1 hm)).2
  simp [live, C.good.notDeleted _ this]

theorem Ctx.rings0 (C : Ctx single close t0 B U) : Rings t0 (LL B U) := by
  intro p hp
  rw [C.filter_all p hp]; exact (C.ring p hp).1

theorem Ctx.fit0 (C : Ctx single close t0 B U) : Fit t0 (LL B U) := by
  intro p hp h hm
  rw [C.filter_all p hp] at hm
  exact C.fit h p (((C.ring p hp).2 h).1 hm)

/-- Blocks do not overlap. -/
theorem Ctx.blk_unique (C : Ctx single close t0 B U) {p p' i : Nat} (hp : p < t0.points.length) (hp' : p' < t0.points.length)
    (h : (B p).m ≤ i ∧ i < (B p).m + (B p).d + (B p).g) (h' : (B p').m ≤ i ∧ i < (B p').m + (B p').d + (B p').g) : p = p' := by
  have h1 := (C.shape.first_pt p hp i).2 h
  have h2 := (C.shape.first_pt p' hp' i).2 h'
  rw [h1] at h2; simpa using h2

/-- Going down. -/
def Down (t0 : Topo K W) (B : Nat → Blk) (i : Nat) : Prop := ∃ p < t0.points.length, i ∈ (B p).downs

theorem Ctx.down_not_flat (C : Ctx single close t0 B U) {p i : Nat} (hp : p < t0.points.length) (h : i ∈ (B p).flats) :
    ¬ Down t0 B i := by
  rintro ⟨p', hp', h'⟩
  rw [mem_flats] at h; rw [mem_downs] at h'
  have := C.blk_unique hp hp' (i := i) (by omega) (by omega)
  subst this; omega

theorem Ctx.runs (C : Ctx single close t0 B U) (i : Nat) (hi : i < t0.n) : ∃ p q a b, t0.pointIdx ⟨i, true⟩ = some p ∧
    t0.pointIdx ⟨i, false⟩ = some q ∧ p < q ∧ t0.points[p]? = some a ∧ t0.points[q]? = some b := by
  obtain ⟨p, q, h1, h2, h3⟩ := C.geo.pts i hi
  have l1 := (C.good.ptLt _ _ h1).1
  have l2 := (C.good.ptLt _ _ h2).1
  exact ⟨p, q, _, _, h1, h2, h3, List.getElem?_eq_getElem l1, List.getElem?_eq_getElem l2⟩

theorem runs_iff {t : Topo K W} {i p q : Nat} {a b a' b' : K × K} (h1 : t.pointIdx ⟨i, true⟩ = some p)
    (h2 : t.pointIdx ⟨i, false⟩ = some q) (h3 : t.points[p]? = some a) (h4 : t.points[q]? = some b) (hr : Runs t i a' b') :
    a' = a ∧ b' = b := by
  obtain ⟨p', q', k1, k2, k3, k4⟩ := hr
  rw [h1] at k1; rw [h2] at k2
  have e1 : p = p' := by simpa using k1
  have e2 : q = q' := by simpa using k2
  subst e1; subst e2
  rw [h3] at k3; rw [h4] at k4
  exact ⟨by simpa using k3.symm, by simpa using k4.symm⟩

/-- Coincident segments have consecutive numbers and start in the same block. -/
theorem coinc_core (good : Good single t0) (shape : Shape t0 B) (last : lastG t0 B = []) {c i : Nat} (hi : i < t0.n) (h : Coincident close t0 c i) :
    c + 1 = i ∧ ∃ p < t0.points.length, c ∈ (B p).downs ∧ i ∈ (B p).downs := by
  obtain ⟨p, hp, hps, hblk⟩ := shape.exists_blk good i hi
  have hdown : i ∈ (B p).downs := by
    rcases hblk with hd | hf
    · exact hd
    · exfalso
      obtain ⟨a, b, hr, hne, _⟩ := h.close
      have hg : p + 1 < t0.points.length := by
        by_contra hc
        have hl := last
        unfold lastG at hl
        have : t0.points.length = p + 1 := by omega
        rw [this] at hl; simp only [hIn] at hl
        rw [hl] at hf; simp at hf
      have h2 := shape.flat_pt p hg i hf
      have l1 := List.getElem?_eq_getElem (show p < t0.points.length by omega)
      have l2 := List.getElem?_eq_getElem hg
      obtain ⟨rfl, rfl⟩ := runs_iff hps h2 l1 l2 hr
      exact hne (shape.flat p hg (by intro hc; rw [hc] at hf; simp at hf) _ _ l1 l2)
  have hcp : t0.pointIdx ⟨c, true⟩ = some p := by rw [← h.start]; exact hps
  have hcb := (shape.first_pt p hp c).1 hcp
  have hlt := good.west i hi c h.west
  rw [mem_downs] at hdown
  have hw := shape.westD p hp i (by omega) hdown.2
  rw [h.west] at hw
  have : c = i - 1 := by simpa using hw
  refine ⟨by omega, p, hp, ?_, ?_⟩ <;> rw [mem_downs] <;> omega

theorem Ctx.coinc (C : Ctx single close t0 B U) {c i : Nat} (hi : i < t0.n) (h : Coincident close t0 c i) :
    c + 1 = i ∧ ∃ p < t0.points.length, c ∈ (B p).downs ∧ i ∈ (B p).downs := coinc_core C.good C.shape C.last hi h

theorem Ctx.paired_succ (C : Ctx single close t0 B U) {k : Nat} (h : Paired close t0 k) : 0 < k ∧ Coincident close t0 (k - 1) k ∧
    ¬ Paired close t0 (k - 1) := by
  cases k with
  | zero => exact absurd h (by simp [Paired])
  | succ k => exact ⟨by omega, h.1, h.2⟩

/-- What becomes of the horizontal segments starting at one point. -/
def FlatsDone (t0 t : Topo K W) (a g : Nat) : Prop :=
  ((∀ i, a ≤ i → i < a + g → t.deleted i = true) ∧ Rk t0.winding a (a + g) = (t0.winding a).cw) ∨
    ∃ f, a ≤ f ∧ f < a + g ∧ (∀ i, a ≤ i → i < a + g → (t.deleted i = false ↔ i = f)) ∧
      t.winding f = ⟨(t0.winding a).cw, Rk t0.winding a (a + g)⟩ ∧
      ((∀ i, a ≤ i → i < a + g → (t0.winding i).cw ≠ (t0.winding i).ccw) → (t0.winding a).cw ≠ Rk t0.winding a (a + g))

theorem FlatsDone.congr {t t' : Topo K W} {a g : Nat} (h : FlatsDone t0 t a g)
    (he : ∀ i, a ≤ i → i < a + g → t'.deleted i = t.deleted i ∧ t'.winding i = t.winding i) : FlatsDone t0 t' a g := by
  rcases h with ⟨h1, h2⟩ | ⟨f, h1, h2, h3, h4, h5⟩
  · exact .inl ⟨fun i q1 q2 => by rw [(he i q1 q2).1]; exact h1 i q1 q2, h2⟩
  · exact .inr ⟨f, h1, h2, fun i q1 q2 => by rw [(he i q1 q2).1]; exact h3 i q1 q2, by rw [(he f h1 h2).2]; exact h4, h5⟩

/-- The state when everything below `k` has been handled. -/
structure MInv (close : Nat → Nat → K → K → Bool) (t0 : Topo K W) (B : Nat → Blk) (U : Nat → List Nat) (t : Topo K W)
    (k : Nat) : Prop where
  same : Same t0 t
  rings : Rings t (LL B U)
  fit : Fit t (LL B U)
  fresh : ∀ i, k ≤ i → i < t0.n → t.deleted i = false ∧ t.winding i = t0.winding i
  pair : ∀ j < k, Paired close t0 j → t.deleted j = true ∧
    t.winding (j - 1) = ⟨(t0.winding (j - 1)).cw, (t0.winding j).ccw⟩ ∧
    (t.deleted (j - 1) = true ↔ (t0.winding (j - 1)).cw = (t0.winding j).ccw)
  plain : ∀ j < k, Down t0 B j → ¬ Paired close t0 j → ¬ (j + 1 < k ∧ Paired close t0 (j + 1)) →
    t.deleted j = false ∧ t.winding j = t0.winding j
  flats : ∀ p < t0.points.length, (B p).m + (B p).d + (B p).g ≤ k → 0 < (B p).g →
    FlatsDone t0 t ((B p).m + (B p).d) (B p).g

theorem MInv.init (C : Ctx single close t0 B U) : MInv close t0 B U t0 0 := by
  refine ⟨Same.refl _, C.rings0, C.fit0, fun i _ hi => ⟨C.good.notDeleted i hi, rfl⟩, ?_, ?_, ?_⟩
  · intro j hj; omega
  · intro j hj; omega
  · intro p _ h1 h2; omega

theorem Ctx.paired_down (C : Ctx single close t0 B U) {k : Nat} (hk : k < t0.n) (h : Paired close t0 k) :
    Down t0 B k ∧ Down t0 B (k - 1) := by
  obtain ⟨_, h2, _⟩ := C.paired_succ h
  obtain ⟨_, p, hp, h3, h4⟩ := C.coinc hk h2
  exact ⟨⟨p, hp, h4⟩, ⟨p, hp, h3⟩⟩

theorem MInv.down (C : Ctx single close t0 B U) {t : Topo K W} {k p : Nat} (hp : p < t0.points.length)
    (hk : k ∈ (B p).downs) (I : MInv close t0 B U t k) :
    ∃ t', mergeOne close t k = some t' ∧ MInv close t0 B U t' (k + 1) := by
  have hk' := hk
  rw [mem_downs] at hk'
  have hkn : k < t0.n := by have := C.shape.blk_lt p hp; omega
  obtain ⟨hkd, hkw⟩ := I.fresh k (le_refl _) hkn
  have G0 := C.geo
  have G := G0.same I.same
  have hkp : t0.pointIdx ⟨k, true⟩ = some p := (C.shape.first_pt p hp k).2 (by omega)
  obtain ⟨p', q, a, b, r1, r2, r3, r4, r5⟩ := C.runs k hkn
  rw [hkp] at r1
  have : p = p' := by simpa using r1
  subst this
  have hne : a.2 ≠ b.2 := ne_of_lt (C.shape.down p hp k hk q r2 a b r4 r5)
  have ha : pointOf t ⟨k, true⟩ = some a := by unfold pointOf; rw [I.same.pointIdx, I.same.points, hkp]; exact r4
  have hb : pointOf t ⟨k, false⟩ = some b := by unfold pointOf; rw [I.same.pointIdx, I.same.points, r2]; exact r5
  -- blocks that end at `k + 1` end at `k`
  have hblk : ∀ p' < t0.points.length, (B p').m + (B p').d + (B p').g ≤ k + 1 → 0 < (B p').g →
      (B p').m + (B p').d + (B p').g ≤ k ∧ ∀ i, (B p').m + (B p').d ≤ i → i < (B p').m + (B p').d + (B p').g → ¬ Down t0 B i := by
    intro p' hp' h1 h2
    have h3 : ∀ i, (B p').m + (B p').d ≤ i → i < (B p').m + (B p').d + (B p').g → ¬ Down t0 B i := by
      intro i q1 q2
      exact C.down_not_flat hp' (by rw [mem_flats]; omega)
    refine ⟨?_, h3⟩
    by_contra hc
    exact h3 k (by omega) (by omega) ⟨p, hp, hk⟩
  by_cases hP : Paired close t0 k
  · obtain ⟨hk0, hco, hnP⟩ := C.paired_succ hP
    obtain ⟨_, pc, hpc, hc1, hc2⟩ := C.coinc hkn hco
    have hdc : Down t0 B (k - 1) := ⟨pc, hpc, hc1⟩
    have hcn : k - 1 < t0.n := by omega
    obtain ⟨hcd, hcw⟩ := I.plain (k - 1) (by omega) hdc hnP (by omega)
    have hpcp : pc = p := by
      rw [mem_downs] at hc2
      exact C.blk_unique hpc hp (i := k) (by omega) (by omega)
    subst hpcp
    -- neighbours at the upper end
    have e0 : (t0.nb ⟨k, true⟩).cw = ⟨k - 1, true⟩ := by
      have hr := (C.ring pc hp).1
      rw [mem_downs] at hc1
      have e1 : (B pc).downs = List.range' (B pc).m (k - 1 - (B pc).m) ++ ([k - 1, k] ++
          List.range' (k + 1) ((B pc).m + (B pc).d - (k + 1))) := by
        unfold Blk.downs
        rw [range'_split3 (B pc).m (B pc).d (k - 1) (k + 1) (by omega) (by omega) (by omega)]
        have : k + 1 - (k - 1) = 2 := by omega
        rw [this]
        have : k - 1 + 1 = k := by omega
        simp [List.range', this]
      unfold ringList at hr
      rw [e1] at hr
      have e2 : (firsts (List.range' (B pc).m (k - 1 - (B pc).m) ++ ([k - 1, k] ++
          List.range' (k + 1) ((B pc).m + (B pc).d - (k + 1))))).reverse =
          (firsts (List.range' (k + 1) ((B pc).m + (B pc).d - (k + 1)))).reverse ++ ⟨k, true⟩ :: ⟨k - 1, true⟩ ::
          (firsts (List.range' (B pc).m (k - 1 - (B pc).m))).reverse := by
        simp [firsts]
      rw [e2] at hr
      generalize (firsts (List.range' (B pc).m (k - 1 - (B pc).m))).reverse = r1 at hr
      generalize (firsts (List.range' (k + 1) ((B pc).m + (B pc).d - (k + 1)))).reverse = r2 at hr
      generalize (firsts (B pc).flats).reverse = r3 at hr
      have e3 : r3 ++ (r2 ++ ⟨k, true⟩ :: ⟨k - 1, true⟩ :: r1 ++ (seconds (hIn B pc) ++ seconds (U pc))) =
          (r3 ++ r2) ++ ⟨k, true⟩ :: ⟨k - 1, true⟩ :: (r1 ++ (seconds (hIn B pc) ++ seconds (U pc))) := by simp
      rw [e3] at hr
      exact (ring_infix hr).1
    have lk : live t ⟨k, true⟩ = true := by simp [live, hkd]
    have lc : live t ⟨k - 1, true⟩ = true := by simp [live, hcd]
    have lk' : live t ⟨k, false⟩ = true := by simp [live, hkd]
    have lc' : live t ⟨k - 1, false⟩ = true := by simp [live, hcd]
    have e1 : (t.nb ⟨k, true⟩).cw = ⟨k - 1, true⟩ :=
      ring_filter_adj (C.ring pc hp).1 (I.rings pc (by rw [I.same.points]; exact hp)) (((C.ring pc hp).2 _).2 hkp) e0 lk lc
    have hql := (C.good.ptLt _ _ r2).1
    have e2 : (t.nb ⟨k - 1, false⟩).cw = ⟨k, false⟩ :=
      ring_filter_adj (C.ring q hql).1 (I.rings q (by rw [I.same.points]; exact hql))
        (((C.ring q hql).2 _).2 (by rw [← hco.stop]; exact r2)) (C.endAdj _ _ hkn hco) lc' lk'
    have hclose : close (t0.origSeg k) (t0.origSeg (k - 1)) a.2 b.2 = true := by
      obtain ⟨a', b', hr, _, hcl⟩ := hco.close
      obtain ⟨rfl, rfl⟩ := runs_iff hkp r2 r4 r5 hr
      exact hcl
    refine ⟨mergeInto t k (k - 1), mergeOne_into close t k (k - 1) hkd e1 ?_ a b ha hb (.inr ⟨?_, ?_⟩), ?_⟩
    · rw [I.same.pointIdx]; exact hco.stop
    · rw [I.same.scanWest]; exact hco.west
    · rw [I.same.origSeg]; exact hclose
    have hdel := mergeInto_deleted t k (k - 1)
    have hwnd := mergeInto_winding t k (k - 1)
    rw [hcw, hkw] at hdel hwnd
    have keep : ∀ j, j ≠ k → j ≠ k - 1 → (mergeInto t k (k - 1)).deleted j = t.deleted j ∧
        (mergeInto t k (k - 1)).winding j = t.winding j := by
      intro j h1 h2
      rw [hdel, hwnd]; simp [h1, h2]
    have tkn : k < t.n := by rw [I.same.n]; exact hkn
    constructor
    case same => exact I.same.trans (same_mergeInto t k (k - 1))
    case rings => exact mergeInto_rings G I.rings k (k - 1) tkn (by omega) hkd hcd
    case fit => exact mergeInto_fit G I.rings I.fit k (k - 1) tkn (by omega) (by omega) hkd hcd e1 e2
    case fresh =>
      intro i h1 h2
      obtain ⟨q1, q2⟩ := keep i (by omega) (by omega)
      rw [q1, q2]; exact I.fresh i (by omega) h2
    case pair =>
      intro j hj hPj
      by_cases hjk : j = k
      · subst hjk
        rw [hdel, hwnd, hdel]
        have : j - 1 ≠ j := by omega
        simp [this, hcd]
      · have h1 : j ≠ k - 1 := by rintro rfl; exact hnP hPj
        obtain ⟨hj0, _, _⟩ := C.paired_succ hPj
        have hh := I.pair j (by omega) hPj
        rw [(keep j hjk h1).1, (keep (j - 1) (by omega) (by omega)).1, (keep (j - 1) (by omega) (by omega)).2]
        exact hh
    case plain =>
      intro j hj hdj hnj hnj'
      have h1 : j ≠ k := by rintro rfl; exact hnj hP
      have h2 : j ≠ k - 1 := by
        rintro rfl
        apply hnj'
        have : k - 1 + 1 = k := by omega
        rw [this]; exact ⟨by omega, hP⟩
      rw [(keep j h1 h2).1, (keep j h1 h2).2]
      exact I.plain j (by omega) hdj hnj (fun hc => hnj' ⟨by omega, hc.2⟩)
    case flats =>
      intro p' hp' h1 h2
      obtain ⟨h3, h4⟩ := hblk p' hp' h1 h2
      refine (I.flats p' hp' h3 h2).congr ?_
      intro i q1 q2
      apply keep i
      · rintro rfl; exact h4 i q1 q2 ⟨pc, hp, hk⟩
      · rintro rfl; exact h4 _ q1 q2 hdc
  · -- nothing happens
    have hskip : mergeOne close t k = some t := by
      unfold mergeOne
      rw [if_neg (by simp [hkd])]
      dsimp only
      by_cases g1 : t.pointIdx ⟨k, false⟩ = t.pointIdx (t.nb ⟨k, true⟩).cw.other
      swap
      · rw [if_neg g1]
      rw [if_pos g1, ha, hb]
      simp only
      by_cases g2 : t.scanWest k = some (t.nb ⟨k, true⟩).cw.idx
      swap
      · rw [if_pos ⟨hne, g2⟩]
      rw [if_neg (by rintro ⟨_, h⟩; exact h g2)]
      by_cases g3 : close (t.origSeg k) (t.origSeg (t.nb ⟨k, true⟩).cw.idx) a.2 b.2 = false
      · rw [if_pos ⟨hne, g3⟩]
      exfalso
      rw [I.same.pointIdx] at g1
      rw [I.same.scanWest] at g2
      rw [I.same.origSeg] at g3
      obtain ⟨⟨n1, n2, _⟩, _⟩ := nbr_live G I.rings ⟨k, true⟩ p (by rw [I.same.pointIdx]; exact hkp) hkd
      rw [I.same.pointIdx] at n1
      generalize hnb : (t.nb ⟨k, true⟩).cw = nbr at *
      obtain ⟨c, f⟩ := nbr
      have hf : f = true := by
        cases f with
        | true => rfl
        | false =>
          simp only [Half.other, Bool.not_false] at g1
          rw [r2] at g1
          have := C.good.order c q p g1.symm n1
          omega
      subst hf
      have hco : Coincident close t0 c k :=
        ⟨g2, by rw [hkp, n1], g1, a, b, ⟨p, q, hkp, r2, r4, r5⟩, hne, by simpa using g3⟩
      obtain ⟨hck, _⟩ := C.coinc hkn hco
      subst hck
      apply hP
      refine ⟨hco, ?_⟩
      intro hPc
      have := (I.pair c (by omega) hPc).1
      simp only at n2
      rw [this] at n2; simp at n2
    refine ⟨t, hskip, I.same, I.rings, I.fit, fun i h1 h2 => I.fresh i (by omega) h2, ?_, ?_, ?_⟩
    · intro j hj hPj
      have : j ≠ k := by rintro rfl; exact hP hPj
      exact I.pair j (by omega) hPj
    · intro j hj hdj hnj hnj'
      by_cases hjk : j = k
      · subst hjk; exact ⟨hkd, hkw⟩
      · exact I.plain j (by omega) hdj hnj (fun hc => hnj' ⟨by omega, hc.2⟩)
    · intro p' hp' h1 h2
      exact I.flats p' hp' (hblk p' hp' h1 h2).1 h2

/-- The bundle of horizontals starting at `p`. -/
theorem Ctx.bdl (C : Ctx single close t0 B U) {t : Topo K W} (hs : Same t0 t) {p : Nat} (hp : p < t0.points.length)
    (hg : 0 < (B p).g) :
    Bdl t (LL B U) p ((B p).m + (B p).d) (B p).g
      ((firsts (B p).downs).reverse ++ (seconds (hIn B p) ++ seconds (U p)))
      ((firsts (B (p + 1)).flats).reverse ++ (firsts (B (p + 1)).downs).reverse) (seconds (U (p + 1))) := by
  have hne : (B p).flats ≠ [] := by
    intro hc
    have : (B p).m + (B p).d ∈ (B p).flats := by rw [mem_flats]; omega
    rw [hc] at this; simp at this
  have hp1 : p + 1 < t0.points.length := by
    by_contra hc
    have hl := C.last
    unfold lastG at hl
    have : t0.points.length = p + 1 := by omega
    rw [this] at hl; simp only [hIn] at hl
    exact hne hl
  have first : ∀ i, (B p).m + (B p).d ≤ i → i < (B p).m + (B p).d + (B p).g → t0.pointIdx ⟨i, true⟩ = some p :=
    fun i h1 h2 => (C.shape.first_pt p hp i).2 (by omega)
  have second : ∀ i, (B p).m + (B p).d ≤ i → i < (B p).m + (B p).d + (B p).g → t0.pointIdx ⟨i, false⟩ = some (p + 1) :=
    fun i h1 h2 => C.shape.flat_pt p hp1 i (by rw [mem_flats]; omega)
  have flat : ∀ u v, t0.points[p]? = some u → t0.points[p + 1]? = some v → u.2 = v.2 := C.shape.flat p hp1 hne
  have inP : ∀ h ∈ (firsts (B p).downs).reverse ++ (seconds (hIn B p) ++ seconds (U p)), t0.pointIdx h = some p ∧
      (h.first = true → h.idx ∈ (B p).downs) := by
    intro h hm
    constructor
    · rw [← (C.ring p hp).2]
      unfold ringList
      exact List.mem_append_right _ hm
    · intro hf
      simp only [List.mem_append, List.mem_reverse, mem_firsts, mem_seconds] at hm
      rcases hm with hm | hm | hm
      · exact hm.1
      · rw [hf] at hm; simp at hm
      · rw [hf] at hm; simp at hm
  constructor
  case geo => exact C.geo.same hs
  case lp => rfl
  case lq =>
    show ringList _ _ _ = _
    unfold ringList
    rw [List.append_assoc]; rfl
  case hp => rw [hs.points]; exact hp1
  case notD =>
    rintro ⟨i, b⟩ hm ⟨h1, h2⟩
    obtain ⟨q1, q2⟩ := inP _ hm
    cases b with
    | false => rw [second i h1 h2] at q1; simp at q1
    | true =>
      have := q2 rfl
      rw [mem_downs] at this
      simp only at this h1
      omega
  case notX =>
    rintro ⟨i, b⟩ hm ⟨h1, h2⟩
    have hb : b = true := by
      simp only [List.mem_append, List.mem_reverse, mem_firsts] at hm
      rcases hm with hm | hm <;> exact hm.2
    subst hb
    have : t0.pointIdx ⟨i, true⟩ = some (p + 1) := by
      rw [← (C.ring (p + 1) hp1).2]
      unfold ringList
      rw [← List.append_assoc]
      exact List.mem_append_left _ hm
    rw [first i h1 h2] at this; simp at this
  case notY =>
    rintro ⟨i, b⟩ hm ⟨h1, h2⟩
    have nd := (C.ring (p + 1) hp1).1.1
    unfold ringList at nd
    rw [← List.append_assoc, ← List.append_assoc, List.nodup_append] at nd
    have hm' := hm
    rw [mem_seconds] at hm'
    refine nd.2.2 ⟨i, b⟩ ?_ ⟨i, b⟩ hm rfl
    rw [List.mem_append]
    right
    rw [mem_seconds]
    refine ⟨?_, hm'.2⟩
    show i ∈ (B p).flats
    rw [mem_flats]; exact ⟨h1, h2⟩
  case first => rw [hs.pointIdx]; exact first
  case second => rw [hs.pointIdx]; exact second
  case flat => rw [hs.points]; exact flat
  case apart =>
    rintro ⟨i, b⟩ hm hc
    rw [hs.pointIdx] at hc
    obtain ⟨q1, q2⟩ := inP _ hm
    cases b with
    | false => exact absurd (C.good.order i (p + 1) p hc q1) (by omega)
    | true =>
      have l1 := List.getElem?_eq_getElem hp
      have l2 := List.getElem?_eq_getElem hp1
      have := C.shape.down p hp i (q2 rfl) (p + 1) hc _ _ l1 l2
      rw [flat _ _ l1 l2] at this
      exact lt_irrefl _ this

theorem MInv.flatStep (C : Ctx single close t0 B U) {t : Topo K W} {p : Nat} (hp : p < t0.points.length)
    (I : MInv close t0 B U t ((B p).m + (B p).d)) :
    ∃ t', mergeLoop close (List.range' ((B p).m + (B p).d) (B p).g) t = some t' ∧
      MInv close t0 B U t' ((B p).m + (B p).d + (B p).g) := by
  have hn := C.shape.blk_lt p hp
  by_cases hg : (B p).g = 0
  · refine ⟨t, by rw [hg]; rfl, ?_⟩
    rw [hg]; exact I
  have hg : 0 < (B p).g := by omega
  have hfl : ∀ i, (B p).m + (B p).d ≤ i → i < (B p).m + (B p).d + (B p).g → t.deleted i = false ∧ t.winding i = t0.winding i :=
    fun i h1 h2 => I.fresh i h1 (by omega)
  obtain ⟨t', h1, D⟩ := bundle close (C.bdl I.same hp hg) I.rings I.fit (fun i h1 h2 => (hfl i h1 h2).1)
  have hnd : ∀ i, (B p).m + (B p).d ≤ i → i < (B p).m + (B p).d + (B p).g → ¬ Down t0 B i :=
    fun i q1 q2 => C.down_not_flat hp (by rw [mem_flats]; omega)
  refine ⟨t', h1, ?_⟩
  generalize ha : (B p).m + (B p).d = a at *
  generalize hge : (B p).g = g at *
  have hwa : t.winding a = t0.winding a := (hfl a (le_refl _) (by omega)).2
  have hRk : Rk t.winding a (a + g) = Rk t0.winding a (a + g) := by
    unfold Rk
    rw [hwa, (hfl (a + g - 1) (by omega) (by omega)).2]
  constructor
  case same => exact I.same.trans D.same
  case rings => exact D.rings
  case fit => exact D.fit
  case fresh =>
    intro i q1 q2
    obtain ⟨o1, o2⟩ := D.out i (by omega)
    rw [o1, o2]; exact I.fresh i (by omega) q2
  case pair =>
    intro j hj hPj
    obtain ⟨hd1, hd2⟩ := C.paired_down (by omega) hPj
    have j1 : j < a := by
      by_contra hc
      exact hnd j (by omega) hj hd1
    obtain ⟨o1, o2⟩ := D.out j (by omega)
    obtain ⟨o3, o4⟩ := D.out (j - 1) (by omega)
    rw [o1, o3, o4]; exact I.pair j j1 hPj
  case plain =>
    intro j hj hdj hnj hnj'
    have j1 : j < a := by
      by_contra hc
      exact hnd j (by omega) hj hdj
    obtain ⟨o1, o2⟩ := D.out j (by omega)
    rw [o1, o2]
    exact I.plain j j1 hdj hnj (fun hc => hnj' ⟨by omega, hc.2⟩)
  case flats =>
    intro p' hp' q1 q2
    by_cases hpp : p' = p
    · subst hpp
      rw [ha, hge]
      rcases D.done with ⟨d1, d2⟩ | ⟨f, d1, d2, d3, d4, d5⟩
      · left
        rw [hRk, hwa] at d2
        exact ⟨d1, d2⟩
      · right
        rw [hRk, hwa] at d4 d5
        refine ⟨f, d1, d2, d3, d4, fun hnt => d5 (fun i r1 r2 => ?_)⟩
        rw [(hfl i r1 r2).2]; exact hnt i r1 r2
    · have hout : ∀ i, (B p').m + (B p').d ≤ i → i < (B p').m + (B p').d + (B p').g → ¬ (a ≤ i ∧ i < a + g) := by
        rintro i r1 r2 ⟨r3, r4⟩
        exact hpp (C.blk_unique hp' hp (i := i) (by omega) (by omega))
      have hle : (B p').m + (B p').d + (B p').g ≤ a := by
        by_contra hc
        exact hout ((B p').m + (B p').d + (B p').g - 1) (by omega) (by omega) ⟨by omega, by omega⟩
      exact (I.flats p' hp' hle q2).congr (fun i r1 r2 => D.out i (hout i r1 r2))

theorem MInv.blockStep (C : Ctx single close t0 B U) {t : Topo K W} {p : Nat} (hp : p < t0.points.length)
    (I : MInv close t0 B U t (B p).m) :
    ∃ t', mergeLoop close (List.range' (B p).m ((B p).d + (B p).g)) t = some t' ∧ MInv close t0 B U t' (B (p + 1)).m := by
  have loop : ∀ m k t, k + m = (B p).m + (B p).d → (B p).m ≤ k → MInv close t0 B U t k →
      ∃ t', mergeLoop close (List.range' k m) t = some t' ∧ MInv close t0 B U t' ((B p).m + (B p).d) := by
    intro m
    induction m with
    | zero => intro k t hk _ N; have : k = (B p).m + (B p).d := by omega
              exact ⟨t, rfl, this ▸ N⟩
    | succ m ih =>
      intro k t hk hak N
      obtain ⟨t1, e1, N1⟩ := N.down C hp (by rw [mem_downs]; omega)
      obtain ⟨t2, e2, N2⟩ := ih (k + 1) t1 (by omega) (by omega) N1
      refine ⟨t2, ?_, N2⟩
      rw [List.range'_succ]
      simp only [mergeLoop, e1]; exact e2
  obtain ⟨t1, e1, I1⟩ := loop (B p).d (B p).m t rfl (le_refl _) I
  obtain ⟨t2, e2, I2⟩ := I1.flatStep C hp
  refine ⟨t2, ?_, ?_⟩
  · have := List.range'_append (s := (B p).m) (m := (B p).d) (n := (B p).g) (step := 1)
    rw [Nat.one_mul] at this
    rw [← this, mergeLoop_append, e1]
    exact e2
  · rw [C.shape.next p hp]; exact I2

theorem Ctx.merge (C : Ctx single close t0 B U) : ∃ t, mergeCoincident close t0 = some t ∧ MInv close t0 B U t t0.n := by
  have : ∀ p ≤ t0.points.length, ∃ t, mergeLoop close (List.range' 0 (B p).m) t0 = some t ∧ MInv close t0 B U t (B p).m := by
    intro p
    induction p with
    | zero =>
      intro _
      refine ⟨t0, by rw [C.shape.m0]; rfl, ?_⟩
      rw [C.shape.m0]; exact MInv.init C
    | succ p ih =>
      intro hp
      obtain ⟨t, h1, h2⟩ := ih (by omega)
      obtain ⟨t', h3, h4⟩ := h2.blockStep C (by omega)
      refine ⟨t', ?_, h4⟩
      have := List.range'_append (s := 0) (m := (B p).m) (n := (B p).d + (B p).g) (step := 1)
      rw [Nat.one_mul, Nat.zero_add] at this
      rw [C.shape.next p (by omega), Nat.add_assoc, ← this, mergeLoop_append, h1]
      exact h3
  obtain ⟨t, h1, h2⟩ := this t0.points.length (le_refl _)
  rw [← C.shape.last] at h1 h2
  refine ⟨t, ?_, h2⟩
  unfold mergeCoincident
  rw [List.range_eq_range']; exact h1

end

end Verif.Merge
