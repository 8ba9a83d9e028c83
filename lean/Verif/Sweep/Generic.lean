import Verif.Sweep.Planar
import Verif.Sweep.Total

/-!
# Segments in general position

Segments may cross, touch, share ends and coincide. Two segments are *tame* if they do not cross and, if they differ somewhere, the comparison tells
them apart where the lower one of the two starts. Nothing is asked of tame segments. Of two segments that are not tame it is asked that no third one
is in the same cluster where they are in one, and that at a height at which a segment starts or ends they are told apart, or start in the same point.
A *cluster* is a group of segments of a line whose order the comparisons leave open.
-/

namespace Verif.Sweep
open Verif.Curve Verif.Range Verif.Topo
set_option linter.unusedSectionVars false

section
variable {K : Type} [LinearOrder K]

/-- At the height `t` the comparison says that `a` is to the left of `b`. -/
def Env.Sure (E : Env K) (t : K) (a b : Nat) : Prop :=
  E.On t a ∧ E.On t b ∧ ∀ p ∈ (E.cmp a b).iter, p.lo ≤ t → t ≤ p.hi → p.order = .left

/-- At the height `t` the comparison does not tell `a` and `b` apart. -/
def Env.Near (E : Env K) (t : K) (a b : Nat) : Prop := ¬ E.Sure t a b ∧ ¬ E.Sure t b a

/-- At the height `t` the comparison does not tell `a` and `b` apart, and from there on `a` is to the right of `b`. -/
def Env.Due (E : Env K) (t : K) (a b : Nat) : Prop :=
  ∃ as q r bs, (E.cmp a b).iter = as ++ q :: r :: bs ∧ q.order = .ish ∧ r.order = .right ∧ q.lo ≤ t ∧ t ≤ q.hi

/-- `a` may come before `b` on a line at the height `t`, as far as the comparisons of neighbours tell. -/
def Env.May (E : Env K) (t : K) : Nat → Nat → Prop := Relation.ReflTransGen fun a b => E.On t a ∧ E.On t b ∧ ¬ E.Sure t b a

/-- `a` and `b` are in the same cluster. -/
def Env.Linked (E : Env K) (t : K) (a b : Nat) : Prop := E.May t a b ∧ E.May t b a

/-- If `a` is to the left of `b` somewhere, it never is to the right, and the comparison says so where both have started. -/
def Env.Parts (E : Env K) (a b : Nat) : Prop := E.Lt a b → ¬ E.Lt b a ∧ (E.cmp a b).orderAfter (max (E.startY a) (E.startY b)) = some .left

/-- The segments do not cross, and the comparison tells which one is to the left. -/
def Env.Tame (E : Env K) (a b : Nat) : Prop := E.Parts a b ∧ E.Parts b a

/-- Segments in general position. -/
structure Env.Generic (E : Env K) : Prop where
  comparable : E.Comparable
  flip : ∀ a b t, E.On t a → E.On t b → a ≠ b → E.cmp b a = (E.cmp a b).flip
  consStart : ∀ a b t, E.On t a → E.On t b → (E.cons a b).start ≤ max (E.startY a) (E.startY b)
  consLeft : ∀ a b t, E.On t a → E.On t b → ∀ p ∈ (E.cons a b).iter, p.order = .left → p.lo ≤ t → t ≤ p.hi → E.atY a t < E.atY b t
  farRight : ∀ a b t, E.On t a → E.On t b → E.farRight a b = true → E.atY a t < E.atY b t
  farLeft : ∀ a b t, E.On t a → E.On t b → E.farLeft b a = true → E.atY a t < E.atY b t
  lower : ∀ a t, E.On t a → E.lowerBound a < E.atY a t
  upper : ∀ a t, E.On t a → E.atY a t < E.upperBound a
  start : ∀ a, E.Tall a → E.atY a (E.startY a) = E.startX a
  alone : ∀ a b c t, E.On t a → E.On t b → a ≠ b → ¬ E.Tame a b → E.Linked t a b → E.Linked t a c → c = a ∨ c = b
  vertex : ∀ a b t, E.On t a → E.On t b → a ≠ b → ¬ E.Tame a b → E.Near t a b → t < E.endY a → t < E.endY b → E.Corner t →
    E.startY a = t ∧ E.startY b = t ∧ E.startX a = E.startX b

variable {E : Env K}

/-! ## Pieces -/

theorem exists_piece_at {c : CurveOrder K} (h : WF c) {z t : K} (hE : EndsAt c z) (h1 : c.start ≤ t) (h2 : t ≤ z) : ∃ p ∈ c.iter, p.lo ≤ t ∧ t ≤ p.hi := by
  obtain ⟨q, hq, hqe⟩ := wf_last_mem hE
  rcases h1.eq_or_lt with h1 | h1
  · cases hi : c.iter with
    | nil => rw [hi] at hq; simp at hq
    | cons p ps =>
      have := h.2
      rw [hi] at this
      obtain ⟨g1, g2⟩ := this.head
      exact ⟨p, by simp, by rw [g1, h1], by rw [← h1, ← g1]; exact g2⟩
  · obtain ⟨p, h3, h4, h5⟩ := h.2.exists_piece h1 ⟨q, hq, hqe.ge⟩ h2
    exact ⟨p, h3, h4.le, h5⟩

theorem iter_flip (c : CurveOrder K) : c.flip.iter = c.iter.map fun p => ⟨p.lo, p.hi, p.order.flip⟩ := by
  simp only [CurveOrder.iter, CurveOrder.flip, pieces_flip]

theorem Order.flip_right {o : Order} : o.flip = .right ↔ o = .left := by cases o <;> simp [Order.flip]
theorem Order.flip_left {o : Order} : o.flip = .left ↔ o = .right := by cases o <;> simp [Order.flip]
theorem Order.flip_ish {o : Order} : o.flip = .ish ↔ o = .ish := by cases o <;> simp [Order.flip]

theorem range_le {a b : Nat} {t : K} (ha : E.On t a) (hb : E.On t b) :
    max (E.startY a) (E.startY b) ≤ t ∧ t ≤ min (E.endY a) (E.endY b) := ⟨max_le ha.2.1 hb.2.1, le_min ha.2.2 hb.2.2⟩

theorem Env.Comparable.piece (hK : E.Comparable) {a b : Nat} {t : K} (ha : E.On t a) (hb : E.On t b) : ∃ p ∈ (E.cmp a b).iter, p.lo ≤ t ∧ t ≤ p.hi := by
  obtain ⟨h1, h2, h3⟩ := hK.wf a b t ha hb
  obtain ⟨h4, h5⟩ := range_le ha hb
  exact exists_piece_at h1 h3 (by rw [h2]; exact h4) h5

/-- Before the end of the pieces there is a piece that goes on. -/
theorem first_after {c : CurveOrder K} (h : WF c) {z t : K} (hE : EndsAt c z) (h1 : c.start ≤ t) (h2 : t < z) :
    ∃ as p bs, c.iter = as ++ p :: bs ∧ p.lo ≤ t ∧ t < p.hi ∧ ∀ a ∈ as, a.hi ≤ t := by
  obtain ⟨q, hq, hqe⟩ := wf_last_mem hE
  have : (c.iter.find? (fun p => t < p.hi)).isSome = true := by
    rw [List.find?_isSome]
    exact ⟨q, hq, by simpa [hqe] using h2⟩
  obtain ⟨p, hp⟩ := Option.isSome_iff_exists.1 this
  obtain ⟨g1, g2, g3⟩ := (find_lt_iff h.2 h1 p).1 hp
  obtain ⟨as, bs, e⟩ := List.append_of_mem g1
  refine ⟨as, p, bs, e, g2, g3, ?_⟩
  intro a ha
  have ht := h.2
  rw [e] at ht
  exact ((ht.split.1 a ha).2.2).trans g2

/-! ## What is sure is true -/

theorem Env.Comparable.sure_lt (hK : E.Comparable) {a b : Nat} {t : K} (h : E.Sure t a b) : E.atY a t < E.atY b t := by
  obtain ⟨ha, hb, h⟩ := h
  obtain ⟨p, hp, h1, h2⟩ := hK.piece ha hb
  exact hK.left a b t ha hb p hp (h p hp h1 h2) t h1 h2

theorem Env.Comparable.sure_irrefl (hK : E.Comparable) {a : Nat} {t : K} : ¬ E.Sure t a a := fun h => lt_irrefl _ (hK.sure_lt h)

theorem Env.Comparable.sure_asymm (hK : E.Comparable) {a b : Nat} {t : K} (h : E.Sure t a b) : ¬ E.Sure t b a :=
  fun h' => lt_irrefl _ ((hK.sure_lt h).trans (hK.sure_lt h'))

theorem Env.Near.symm {a b : Nat} {t : K} (h : E.Near t a b) : E.Near t b a := ⟨h.2, h.1⟩

/-! ## Clusters -/

theorem may_of {a b : Nat} {t : K} (ha : E.On t a) (hb : E.On t b) (h : ¬ E.Sure t b a) : E.May t a b := Relation.ReflTransGen.single ⟨ha, hb, h⟩

theorem linked_of_near {a b : Nat} {t : K} (ha : E.On t a) (hb : E.On t b) (h : E.Near t a b) : E.Linked t a b := ⟨may_of ha hb h.2, may_of hb ha h.1⟩

theorem Env.Linked.symm {a b : Nat} {t : K} (h : E.Linked t a b) : E.Linked t b a := ⟨h.2, h.1⟩

theorem Env.Linked.trans {a b c : Nat} {t : K} (h : E.Linked t a b) (h' : E.Linked t b c) : E.Linked t a c :=
  ⟨Relation.ReflTransGen.trans h.1 h'.1, Relation.ReflTransGen.trans h'.2 h.2⟩

theorem may_total {a b : Nat} {t : K} (hK : E.Comparable) (ha : E.On t a) (hb : E.On t b) : E.May t a b ∨ E.May t b a := by
  by_cases h : E.Sure t b a
  · exact .inr (may_of hb ha (hK.sure_asymm h))
  · exact .inl (may_of ha hb h)

theorem Env.Tame.symm {a b : Nat} (h : E.Tame a b) : E.Tame b a := ⟨h.2, h.1⟩

/-- If two segments that are not tame are surely in one order, no chain of comparisons leaves the other order open. -/
theorem Env.Generic.not_may (hG : E.Generic) {a b : Nat} {t : K} (hw : ¬ E.Tame a b) (h : E.Sure t b a) : ¬ E.May t a b := by
  intro hm
  have hK := hG.comparable
  have hne : a ≠ b := by rintro rfl; exact hK.sure_irrefl h
  have hba : E.May t b a := may_of h.1 h.2.1 (hK.sure_asymm h)
  have key : ∀ c, E.May t a c → E.May t c b → c = a := by
    intro c hc
    induction hc with
    | refl => intro _; rfl
    | tail h1 h2 ih =>
      rename_i x z
      intro hzb
      have hxb : E.May t x b := Relation.ReflTransGen.trans (Relation.ReflTransGen.single h2) hzb
      obtain rfl := ih hxb
      rcases hG.alone x b z t h.2.1 h.1 hne hw ⟨hm, hba⟩ ⟨Relation.ReflTransGen.single h2, Relation.ReflTransGen.trans hzb hba⟩ with h3 | h3
      · exact h3
      · rw [h3] at h2
        exact absurd h h2.2.2
  exact hne (key b hm Relation.ReflTransGen.refl).symm

/-- Where two segments that are not tame are close to each other, no third segment is close to one of them. -/
theorem Env.Generic.lonely (hG : E.Generic) {a b c : Nat} {t : K} (ha : E.On t a) (hb : E.On t b) (hc : E.On t c) (hab : a ≠ b) (hca : c ≠ a) (hcb : c ≠ b)
    (hw : ¬ E.Tame a b) (h : E.Near t a b) : ¬ E.Near t a c := by
  intro h'
  rcases hG.alone a b c t ha hb hab hw (linked_of_near ha hb h) (linked_of_near ha hc h') with h | h
  · exact hca h
  · exact hcb h

/-- Nor is it between them. -/
theorem Env.Generic.nothing (hG : E.Generic) {a b c : Nat} {t : K} (hab : a ≠ b) (hw : ¬ E.Tame a b) (h : E.Near t a b) (h1 : E.Sure t a c) : ¬ E.Sure t c b := by
  intro h2
  have hK := hG.comparable
  have hac := may_of h1.1 h1.2.1 (hK.sure_asymm h1)
  have hcb := may_of h2.1 h2.2.1 (hK.sure_asymm h2)
  have hba := may_of h2.2.1 h1.1 h.1
  rcases hG.alone a b c t h1.1 h2.2.1 hab hw (linked_of_near h1.1 h2.2.1 h) ⟨hac, Relation.ReflTransGen.trans hcb hba⟩ with h | h
  · rw [h] at h1; exact hK.sure_irrefl h1
  · rw [h] at h2; exact hK.sure_irrefl h2

/-- If `a ≤ b ≤ c` and `a` and `c` are close to each other and not tame, `b` is one of them. -/
theorem Env.Generic.squeeze (hG : E.Generic) {a b c : Nat} {t : K} (ha : E.On t a) (hb : E.On t b) (hc : E.On t c) (h1 : ¬ E.Sure t b a) (h2 : ¬ E.Sure t c b)
    (h : E.Near t a c) (hw : ¬ E.Tame a c) (hab : a ≠ b) (hbc : b ≠ c) (hac : a ≠ c) : False := by
  have g1 : E.Sure t a b := by
    by_contra hn
    exact hG.lonely ha hc hb hac hab.symm hbc hw h ⟨hn, h1⟩
  have g2 : E.Sure t b c := by
    by_contra hn
    exact hG.lonely hc ha hb hac.symm hbc hab.symm (fun h => hw h.symm) h.symm ⟨h2, hn⟩
  exact hG.nothing hac hw h g1 g2

/-- Clusters are chains of segments that are close to each other in a sense `M`, if segments that are not told apart are, and everything between two
segments that are close to each other is close to one of them. -/
theorem linked_chain (hK : E.Comparable) {M : Nat → Nat → Prop} {t : K} (symm : ∀ a b, M a b → M b a)
    (near : ∀ a b, E.On t a → E.On t b → a ≠ b → E.Near t a b → M a b)
    (between : ∀ a x c, E.Sure t a x → E.Sure t x c → M a c → M a x ∨ M x c) {a b : Nat} (ha : E.On t a) (hb : E.On t b) (h : E.Linked t a b) :
    Relation.ReflTransGen (fun a b => E.On t a ∧ E.On t b ∧ M a b) a b := by
  have key : ∀ {r z : Nat}, E.On t r → E.May t r z → ¬ E.Sure t z r ∨ Relation.ReflTransGen (fun a b => E.On t a ∧ E.On t b ∧ M a b) r z := by
    intro r z hr hz
    obtain ⟨C, hC⟩ : ∃ C : Nat → Prop, C = fun x => Relation.ReflTransGen (fun a b => E.On t a ∧ E.On t b ∧ M a b) r x := ⟨_, rfl⟩
    have hrefl : C r := by rw [hC]
    have step : ∀ {c x}, C c → E.On t c → E.On t x → M c x → C x := by
      intro c x h1 h2 h3 h4
      rw [hC] at h1 ⊢
      exact h1.tail ⟨h2, h3, h4⟩
    have apart : ∀ {c x}, C c → ¬ C x → E.On t c → E.On t x → E.Sure t c x ∨ E.Sure t x c := by
      intro c x h1 h2 h3 h4
      by_contra hn
      rw [not_or] at hn
      have hne : c ≠ x := by rintro rfl; exact h2 h1
      exact h2 (step h1 h3 h4 (near c x h3 h4 hne hn))
    have inv : C z ∨ (E.On t z ∧ E.Sure t r z) := by
      induction hz with
      | refl => exact .inl hrefl
      | tail h0 h2 ih =>
        rename_i x z
        by_cases hz : C z
        · exact .inl hz
        right
        refine ⟨h2.2.1, ?_⟩
        rcases apart hrefl hz hr h2.2.1 with k | k
        · exact k
        · exfalso
          by_cases hx : C x
          · -- `z` is to the left of `r` and not to the left of `x`
            have hzx : E.Sure t x z := by
              rcases apart hx hz h2.1 h2.2.1 with k' | k'
              · exact k'
              · exact absurd k' h2.2.2
            -- the chain from `r` to `x` jumps over `z`
            have : ∀ c, C c → E.Sure t z c := by
              intro c hc
              rw [hC] at hc
              induction hc with
              | refl => exact k
              | tail h1 h2' ih' =>
                rename_i d c
                have hd : C d := by rw [hC]; exact h1
                have hc : C c := step hd h2'.1 h2'.2.1 h2'.2.2
                rcases apart hc hz h2'.2.1 h2.2.1 with k' | k'
                · exfalso
                  rcases between c z d k' ih' (symm _ _ h2'.2.2) with m | m
                  · exact hz (step hc h2'.2.1 h2.2.1 m)
                  · exact hz (step hd h2'.1 h2.2.1 (symm _ _ m))
                · exact k'
            exact hK.sure_asymm hzx (this x hx)
          · rcases ih with ih | ⟨ih1, ih2⟩
            · exact hx ih
            · have hlt := (hK.sure_lt k).trans (hK.sure_lt ih2)
              have hne : z ≠ x := by rintro rfl; exact lt_irrefl _ hlt
              have hM := near z x h2.2.1 ih1 hne ⟨h2.2.2, fun h => lt_irrefl _ (hlt.trans (hK.sure_lt h))⟩
              rcases between z r x k ih2 hM with m | m
              · exact hz (step hrefl hr h2.2.1 (symm _ _ m))
              · exact hx (step hrefl hr ih1 m)
    rcases inv with h | ⟨_, h⟩
    · rw [hC] at h; exact .inr h
    · exact .inl (hK.sure_asymm h)
  have flip : ∀ {x z}, Relation.ReflTransGen (fun a b => E.On t a ∧ E.On t b ∧ M a b) x z → Relation.ReflTransGen (fun a b => E.On t a ∧ E.On t b ∧ M a b) z x := by
    intro x z h
    induction h with
    | refl => exact Relation.ReflTransGen.refl
    | tail _ h2 ih => exact (Relation.ReflTransGen.single ⟨h2.2.1, h2.1, symm _ _ h2.2.2⟩).trans ih
  rcases key ha h.1 with h1 | h1
  · rcases key hb h.2 with h2 | h2
    · by_cases hab : a = b
      · rw [hab]
      · exact Relation.ReflTransGen.single ⟨ha, hb, near a b ha hb hab ⟨h2, h1⟩⟩
    · exact flip h2
  · exact h1

open Classical in
/-- The number of segments in clusters to the left. -/
noncomputable def Env.rank (E : Env K) (a : Nat) (t : K) : Int := ((E.segs.toFinset.filter fun x => E.On t x ∧ ¬ E.May t a x).card : Int)

theorem rank_le {a b : Nat} {t : K} (hb : E.May t a b) : E.rank a t ≤ E.rank b t := by
  classical
  unfold Env.rank
  rw [Int.ofNat_le]
  refine Finset.card_le_card ?_
  intro x hx
  rw [Finset.mem_filter] at hx ⊢
  exact ⟨hx.1, hx.2.1, fun h => hx.2.2 (Relation.ReflTransGen.trans hb h)⟩

theorem rank_lt {a b : Nat} {t : K} (hK : E.Comparable) (ha : E.On t a) (hb : E.On t b) (h : ¬ E.May t a b) : E.rank b t < E.rank a t := by
  classical
  have hba : E.May t b a := (may_total hK ha hb).resolve_left h
  unfold Env.rank
  rw [Int.ofNat_lt]
  refine Finset.card_lt_card ⟨?_, ?_⟩
  · intro x hx
    rw [Finset.mem_filter] at hx ⊢
    exact ⟨hx.1, hx.2.1, fun h' => hx.2.2 (Relation.ReflTransGen.trans hba h')⟩
  · intro hsub
    have : b ∈ E.segs.toFinset.filter fun x => E.On t x ∧ ¬ E.May t a x := by
      rw [Finset.mem_filter, List.mem_toFinset]
      exact ⟨hb.1.1, hb, h⟩
    have := hsub this
    rw [Finset.mem_filter] at this
    exact this.2.2 Relation.ReflTransGen.refl

/-- The comparison contains a piece that does not say so. -/
theorem not_sure_of {a b : Nat} {t : K} {p : Piece K} (hp : p ∈ (E.cmp a b).iter) (h1 : p.lo ≤ t) (h2 : t ≤ p.hi) (h : p.order ≠ .left) : ¬ E.Sure t a b :=
  fun hs => h (hs.2.2 p hp h1 h2)

theorem not_sure_flip (hG : E.Generic) {a b : Nat} {t : K} {p : Piece K} (hp : p ∈ (E.cmp a b).iter) (h1 : p.lo ≤ t) (h2 : t ≤ p.hi)
    (h : p.order ≠ .right) : ¬ E.Sure t b a := by
  intro hs
  by_cases hab : a = b
  · subst hab; exact hG.comparable.sure_irrefl hs
  have := hs.2.2 ⟨p.lo, p.hi, p.order.flip⟩ (by rw [hG.flip a b t hs.2.1 hs.1 hab, iter_flip]; exact List.mem_map_of_mem (f := fun p : Piece K => (⟨p.lo, p.hi, p.order.flip⟩ : Piece K)) hp) h1 h2
  exact h (Order.flip_left.1 this)

theorem Env.Generic.sound (hG : E.Generic) : E.Sound E.rank 0 := by
  have hK := hG.comparable
  have on1 : ∀ {a b : Nat} {t : K}, E.Tall a → E.Both a b t → E.On t a := fun ha h => ⟨ha, h.1, h.2.2.1⟩
  have on2 : ∀ {a b : Nat} {t : K}, E.Tall b → E.Both a b t → E.On t b := fun hb h => ⟨hb, h.2.1, h.2.2.2⟩
  have geo : ∀ {a b : Nat} {t : K}, E.On t a → E.On t b → E.atY a t < E.atY b t → E.rank a t + 0 ≤ E.rank b t := by
    intro a b t ha hb h
    rw [add_zero]
    exact rank_le (may_of ha hb fun hs => lt_irrefl _ (h.trans (hK.sure_lt hs)))
  refine ⟨le_rfl, ?_, ?_, ?_, ?_, ?_, hK.mid⟩
  · intro a ha b hb t h
    obtain ⟨h1, h2, h3⟩ := hK.wf a b t (on1 ha h) (on2 hb h)
    obtain ⟨h4, h5⟩ := hK.cons a b t (on1 ha h) (on2 hb h)
    exact ⟨⟨h1, h2.le, h3⟩, h4, hG.consStart a b t (on1 ha h) (on2 hb h)⟩
  · intro a ha b hb p hp hpo t h1 h2 h
    rw [add_zero]
    exact rank_le (may_of (on1 ha h) (on2 hb h) (not_sure_flip hG hp h1 h2 hpo))
  · intro a ha b hb p hp hpo t h1 h2 h
    exact geo (on1 ha h) (on2 hb h) (hG.consLeft a b t (on1 ha h) (on2 hb h) p hp hpo h1 h2)
  · intro a ha b hb hf t h
    exact geo (on1 ha h) (on2 hb h) (hG.farRight a b t (on1 ha h) (on2 hb h) hf)
  · intro a ha b hb hf t h
    exact geo (on1 ha h) (on2 hb h) (hG.farLeft a b t (on1 ha h) (on2 hb h) hf)

/-! ## Pairs that are about to cross -/

theorem Env.Due.near (hG : E.Generic) {a b : Nat} {t : K} (h : E.Due t a b) : E.Near t a b := by
  obtain ⟨as, q, r, bs, e, h1, h2, h3, h4⟩ := h
  have hq : q ∈ (E.cmp a b).iter := by rw [e]; simp
  exact ⟨not_sure_of hq h3 h4 (by rw [h1]; simp), not_sure_flip hG hq h3 h4 (by rw [h1]; simp)⟩

theorem sure_after (hK : E.Comparable) {a b : Nat} {t : K} (h : E.Sure t a b) : (E.cmp a b).orderAfter t = some .left := by
  obtain ⟨ha, hb, h⟩ := h
  obtain ⟨hwf, hst, hen⟩ := hK.wf a b t ha hb
  obtain ⟨g1, g2⟩ := range_le ha hb
  rcases g2.eq_or_lt with h0 | hlt
  · obtain ⟨l, l1, l2⟩ := hen
    unfold CurveOrder.orderAfter
    rw [l1]
    dsimp only
    rw [if_pos (by rw [l2]; exact h0)]
    obtain ⟨as, has⟩ := List.getLast?_eq_some_iff.1 l1
    have he := iter_snoc has
    congr 1
    have hwf' := hwf.2
    rw [he] at hwf' h
    have := hwf'.split
    exact h _ (by simp) (this.2.2.1.trans (by dsimp only; rw [l2, h0])) (by dsimp only; rw [l2, h0])
  · rw [C08_order_after_definite _ hwf _ hen t hlt.ne _ (by simp)]
    obtain ⟨as, p, bs, e, h1, h2, h3⟩ := first_after hwf hen (by rw [hst]; exact g1) hlt
    exact ⟨as, p, bs, e, h2, h p (by rw [e]; simp) h1 h2.le, fun x hx hlt => absurd (h3 x hx) (not_le.2 hlt)⟩

theorem due_after (hK : E.Comparable) {a b : Nat} {t : K} (ha : E.On t a) (hb : E.On t b) (hea : t < E.endY a) (heb : t < E.endY b) (h : E.Due t a b) :
    (E.cmp a b).orderAfter t = some .right := by
  obtain ⟨hwf, hst, hen⟩ := hK.wf a b t ha hb
  obtain ⟨as, q, r, bs, e, h1, h2, h3, h4⟩ := h
  rw [C08_order_after_definite _ hwf _ hen t (lt_min hea heb).ne _ (by simp)]
  have hlt : max (E.startY a) (E.startY b) < min (E.endY a) (E.endY b) := (range_le ha hb).1.trans_lt (lt_min hea heb)
  have hr := hK.strict a b t ha hb hlt r (by rw [e]; simp) (by rw [h2]; simp)
  have ht := hwf.2
  rw [e] at ht
  have hqr := ht.adj.1
  refine ⟨as ++ [q], r, bs, by rw [e]; simp, by rw [hqr] at h4; exact lt_of_le_of_lt h4 hr, h2, ?_⟩
  intro x hx hlt
  rw [List.mem_append, List.mem_singleton] at hx
  rcases hx with hx | rfl
  · exact absurd (((ht.split.1 x hx).2.2).trans h3) (not_le.2 hlt)
  · exact h1

theorem Env.Generic.after_flip (hG : E.Generic) {a b : Nat} {t : K} (ha : E.On t a) (hb : E.On t b) (hab : a ≠ b) :
    (E.cmp b a).orderAfter t = ((E.cmp a b).orderAfter t).map Order.flip := by
  rw [hG.flip a b t ha hb hab, C09_flip_order_after]

/-- Two segments cannot be about to cross in both ways. -/
theorem Env.Due.asymm (hG : E.Generic) {a b : Nat} {t : K} (ha : E.On t a) (hb : E.On t b) (hab : a ≠ b) (hea : t < E.endY a) (heb : t < E.endY b)
    (h : E.Due t a b) : ¬ E.Due t b a := by
  intro h'
  have h1 := due_after hG.comparable ha hb hea heb h
  have h2 := due_after hG.comparable hb ha heb hea h'
  rw [hG.after_flip ha hb hab, h1] at h2
  simp [Order.flip] at h2

/-- The event is that two segments cross, or that they touch. -/
structure EvDue (E : Env K) (ev : IEvent K) : Prop where
  left : E.On ev.y ev.left
  right : E.On ev.y ev.right
  ne : ev.left ≠ ev.right
  liveL : ev.y < E.endY ev.left
  liveR : ev.y < E.endY ev.right
  due : E.Due ev.y ev.left ev.right

/-- What a comparison of two segments of the line finds. -/
theorem touchEvent_ok (hG : E.Generic) {y : K} {a b : Nat} (ha : E.On y a) (hb : E.On y b) (hya : E.endY a ≠ y) (hyb : E.endY b ≠ y)
    (hne : a ≠ b) (hab : ¬ E.Sure y b a) {ev : IEvent K} (h : touchEvent E y a b = some (some ev)) :
    EvDue E ev ∧ (ev.y = y → ev.left = a ∧ ev.right = b) := by
  have hK := hG.comparable
  obtain ⟨hwf, hst, hen⟩ := hK.wf a b y ha hb
  obtain ⟨r, hr, hsp⟩ := C11_next_touch E.mid (E.cmp a b) hwf y ((E.cmp a b).cmps.length + 1) (Nat.lt_succ_self _)
  unfold touchEvent touch at h
  rw [hr] at h
  have hea : y < E.endY a := lt_of_le_of_ne ha.2.2 hya.symm
  have heb : y < E.endY b := lt_of_le_of_ne hb.2.2 hyb.symm
  have hlt : max (E.startY a) (E.startY b) < min (E.endY a) (E.endY b) := (range_le ha hb).1.trans_lt (lt_min hea heb)
  have ht := hwf.2
  -- an undetermined piece `q` followed by `r`, and a height of `q`
  have key : ∀ as (q r : Piece K) bs z, (E.cmp a b).iter = as ++ q :: r :: bs → r.order ≠ .ish → y ≤ z → z ≤ q.hi →
      E.On z a ∧ E.On z b ∧ z < E.endY a ∧ z < E.endY b := by
    intro as q r bs z e h1 h2 h3
    have hrm : r ∈ (E.cmp a b).iter := by rw [e]; simp
    have hrr := hK.strict a b y ha hb hlt r hrm h1
    rw [e] at ht
    have h4 : z < min (E.endY a) (E.endY b) := lt_of_le_of_lt h3 (by rw [ht.adj.1]; exact lt_of_lt_of_le hrr (wf_hi_le hwf hen r hrm))
    obtain ⟨h5, h6⟩ := lt_min_iff.1 h4
    exact ⟨⟨ha.1, ha.2.1.trans h2, h5.le⟩, ⟨hb.1, hb.2.1.trans h2, h6.le⟩, h5, h6⟩
  cases r with
  | none => simp at h
  | some i =>
    cases i with
    | cross z =>
      obtain ⟨as, p, bs, e, e2, e3, e4, e5⟩ := hsp
      dsimp only at h
      simp only [Option.some.injEq] at h
      subst h
      refine ⟨?_, fun _ => ⟨rfl, rfl⟩⟩
      have hpm : p ∈ (E.cmp a b).iter := by rw [e]; simp
      -- the piece before
      have hprev : ∃ as' q, as = as' ++ [q] ∧ q.order = .ish ∧ q.lo ≤ max y z ∧ max y z ≤ q.hi := by
        rcases e5 with ⟨as', q, f1, f2, f3, f4⟩ | ⟨f1, f2, f3, f4⟩
        · have hqm : q ∈ (E.cmp a b).iter := by rw [e, f1]; simp
          obtain ⟨g1, g2⟩ := hK.mid q.lo q.hi (ht.lo_le q hqm).2
          refine ⟨as', q, f1, f2, ?_, ?_⟩
          · rw [f4]; exact g1.trans (le_max_right _ _)
          · rw [f4]; exact max_le f3.le g2
        · rw [max_eq_right f1]
          rw [e] at ht
          have hprev := ht.prev
          have hz : p.lo ≤ z := by
            rcases hprev with ⟨h0, h1⟩ | ⟨as', q, h0, h1⟩
            · rw [h1, hst]; exact ((range_le ha hb).1).trans f1
            · rw [← h1]; exact f3 q (by rw [h0]; simp)
          have hzlo : z = p.lo := by
            rcases f4 with h0 | h0
            · by_contra hne'
              have hlo : p.lo < y := by rw [← h0]; exact lt_of_le_of_ne hz (Ne.symm hne')
              apply hab
              refine ⟨hb, ha, ?_⟩
              rw [hG.flip a b y ha hb hne, iter_flip]
              intro x hx h1 h2
              obtain ⟨x', hx', rfl⟩ := List.mem_map.1 hx
              dsimp only at h1 h2 ⊢
              rw [Order.flip_left]
              rw [e, List.mem_append, List.mem_cons] at hx'
              rcases hx' with hx' | rfl | hx'
              · have := (ht.split.1 x' hx').2.2
                exact absurd hlo (not_lt.2 (h2.trans this))
              · exact e2
              · have := (ht.split.2.2.2 x' hx').1
                exact absurd e3 (not_lt.2 (this.trans h1))
            · exact h0
          rcases hprev with ⟨h0, h1⟩ | ⟨as', q, h0, h1⟩
          · exfalso
            apply hab
            refine ⟨hb, ha, ?_⟩
            rw [hG.flip a b y ha hb hne, iter_flip]
            intro x hx g1 g2
            obtain ⟨x', hx', rfl⟩ := List.mem_map.1 hx
            dsimp only at g1 g2 ⊢
            rw [Order.flip_left]
            rw [e, h0, List.nil_append, List.mem_cons] at hx'
            rcases hx' with rfl | hx'
            · exact e2
            · have := (ht.split.2.2.2 x' hx').1
              exact absurd e3 (not_lt.2 (this.trans g1))
          · refine ⟨as', q, h0, ?_, ?_, ?_⟩
            · rw [h0, List.append_assoc] at ht
              rcases ht.adj.2.2 with h | h
              · exact h
              · rw [e2] at h; simp at h
            · rw [hzlo, ← h1]
              exact (ht.split.1 q (by rw [h0]; simp)).2.1
            · rw [hzlo, ← h1]
      obtain ⟨as', q, f1, f2, f3, f4⟩ := hprev
      have e' : (E.cmp a b).iter = as' ++ q :: p :: bs := by rw [e, f1]; simp
      obtain ⟨k1, k2, k3, k4⟩ := key as' q p bs (max y z) e' (by rw [e2]; simp) (le_max_left _ _) f4
      exact ⟨k1, k2, hne, k3, k4, as', q, p, bs, e', f2, e2, f3, f4⟩
    | touch z =>
      obtain ⟨as, p, q, bs, e1, e2, e3, e4, e5, _⟩ := hsp
      dsimp only at h
      by_cases hz : y < z
      case neg => rw [if_neg hz] at h; simp at h
      rw [if_pos hz] at h
      simp only [Option.some.injEq] at h
      subst h
      have hpm : p ∈ (E.cmp a b).iter := by rw [e1]; simp
      obtain ⟨g1, g2⟩ := hK.mid p.lo p.hi (ht.lo_le p hpm).2
      rw [← e5] at g1 g2
      obtain ⟨k1, k2, k3, k4⟩ := key as p q bs z e1 (by rw [e3]; simp) hz.le g2
      refine ⟨⟨k2, k1, hne.symm, k4, k3, ?_⟩, fun h => absurd h hz.ne'⟩
      refine ⟨as.map fun p => ⟨p.lo, p.hi, p.order.flip⟩, ⟨p.lo, p.hi, p.order.flip⟩, ⟨q.lo, q.hi, q.order.flip⟩, bs.map fun p => ⟨p.lo, p.hi, p.order.flip⟩, ?_,
        Order.flip_ish.2 e2, Order.flip_right.2 e3, g1, g2⟩
      dsimp only
      rw [hG.flip a b y ha hb hne, iter_flip, e1]
      simp

end
end Verif.Sweep
