import Verif.Sweep.Cross
import Mathlib.Algebra.Order.Group.Defs
import Mathlib.Algebra.Order.Group.Unbundled.Basic
import Mathlib.Tactic.Abel

/-!
# What the scans for intersections guarantee

The comparisons of segments are assumed to be sound up to a margin `m` with respect to the horizontal positions `px`. Then a scan
from a segment finds a reason why no other segment of the line can be on the wrong side of it by more than `m` unnoticed.
-/

namespace Verif.Sweep
open Verif.Curve Verif.Range Verif.Topo
set_option linter.unusedSectionVars false

variable {K P : Type} [LinearOrder K] [LinearOrder P] [AddCommGroup P] [IsOrderedAddMonoid P] {px : Nat → K → P}

/-- A segment that is not horizontal. -/
def Env.Tall (E : Env K) (a : Nat) : Prop := a ∈ E.segs ∧ E.startY a < E.endY a

/-- The height `t` is a height of both segments. -/
def Env.Both (E : Env K) (a b : Nat) (t : K) : Prop := E.startY a ≤ t ∧ E.startY b ≤ t ∧ t ≤ E.endY a ∧ t ≤ E.endY b

/-- The comparisons are sound up to the margin `m`: unless the comparison says `right`, `a` is at most `m` to the right of `b`; if the
conservative comparison says `left`, or one of the crude comparisons of the bounding boxes succeeds, `a` is at least `m` to the left of
`b`. Each comparison covers the heights that the two segments have in common. (In the code `m` is `3/2 eps`: the tolerance of the
comparisons is `eps`, that of the conservative ones `4 eps`, the accuracy `eps/2` and the crude comparisons leave `2 eps`.) -/
structure Env.Sound (E : Env K) (px : Nat → K → P) (m : P) : Prop where
  nonneg : 0 ≤ m
  wf : ∀ a, E.Tall a → ∀ b, E.Tall b → ∀ t, E.Both a b t → (WF (E.cmp a b) ∧ (E.cmp a b).start ≤ max (E.startY a) (E.startY b) ∧
    EndsAt (E.cmp a b) (min (E.endY a) (E.endY b))) ∧ WF (E.cons a b) ∧ (E.cons a b).start ≤ max (E.startY a) (E.startY b)
  cmp : ∀ a, E.Tall a → ∀ b, E.Tall b → ∀ p ∈ (E.cmp a b).iter, p.order ≠ .right → ∀ t, p.lo ≤ t → t ≤ p.hi → E.Both a b t →
    px a t ≤ px b t + m
  cons : ∀ a, E.Tall a → ∀ b, E.Tall b → ∀ p ∈ (E.cons a b).iter, p.order = .left → ∀ t, p.lo ≤ t → t ≤ p.hi → E.Both a b t →
    px a t + m ≤ px b t
  farRight : ∀ a, E.Tall a → ∀ b, E.Tall b → E.farRight a b = true → ∀ t, E.Both a b t → px a t + m ≤ px b t
  farLeft : ∀ a, E.Tall a → ∀ b, E.Tall b → E.farLeft b a = true → ∀ t, E.Both a b t → px a t + m ≤ px b t
  mid : ∀ a b : K, a ≤ b → a ≤ E.mid a b ∧ E.mid a b ≤ b

/-- At the height `t`, `a` is more than `m` to the right of `b`. -/
def Viol (px : Nat → K → P) (m : P) (t : K) (a b : Nat) : Prop := px b t + m < px a t

/-- What is true of the segments of the line at the height `y`. -/
def OnLine (E : Env K) (y : K) (x : Nat) : Prop := E.Tall x ∧ E.startY x ≤ y ∧ y ≤ E.endY x

theorem both_of {E : Env K} {y t : K} {a b : Nat} (ha : OnLine E y a) (hb : OnLine E y b) (hy : y < t) (h1 : t ≤ E.endY a) (h2 : t ≤ E.endY b) :
    E.Both a b t := ⟨ha.2.1.trans hy.le, hb.2.1.trans hy.le, h1, h2⟩

theorem Both.symm {E : Env K} {a b : Nat} {t : K} (h : E.Both a b t) : E.Both b a t := ⟨h.2.1, h.1, h.2.2.2, h.2.2.1⟩

/-- If `a` will be on the wrong side of `b`, comparing them finds an event before that. -/
theorem touchEvent_complete {E : Env K} {m : P} {y t : K} (hS : E.Sound px m) {a b : Nat} (ha : OnLine E y a) (hb : OnLine E y b) (hy : y < t)
    (h1 : t ≤ E.endY a) (h2 : t ≤ E.endY b) (hv : Viol px m t a b) :
    ∃ ev, touchEvent E y a b = some (some ev) ∧ ev.y ≤ t := by
  have hB := both_of ha hb hy h1 h2
  obtain ⟨⟨hwf, hst, hen⟩, _⟩ := hS.wf a ha.1 b hb.1 t hB
  have hlt : (E.cmp a b).start < t := lt_of_le_of_lt (hst.trans (max_le ha.2.1 hb.2.1)) hy
  obtain ⟨q, hq, hqe⟩ := wf_last_mem hen
  obtain ⟨P, hP, hP1, hP2⟩ := hwf.2.exists_piece hlt ⟨q, hq, hqe.ge⟩ (le_min h1 h2)
  have hPo : P.order = .right := by
    by_contra hne
    have := hS.cmp a ha.1 b hb.1 P hP hne t hP1.le hP2 hB
    exact absurd hv (not_lt.2 this)
  have hPy : y < P.hi := lt_of_lt_of_le hy hP2
  have hPpos : P.lo < P.hi := lt_of_lt_of_le hP1 hP2
  obtain ⟨r, hr, hsp⟩ := C11_next_touch E.mid (E.cmp a b) hwf y ((E.cmp a b).cmps.length + 1) (by omega)
  have hT : touch E (E.cmp a b) y = some r := hr
  unfold touchEvent
  rw [hT]
  match r, hsp with
  | none, hsp => exact absurd hPo (hsp P hP hPpos hPy)
  | some (.cross z), hsp =>
    obtain ⟨as, p, bs, e, k1, k2, k3, k4⟩ := hsp
    refine ⟨_, rfl, ?_⟩
    have ht := hwf.2
    rw [e] at ht
    have hPp : p.lo ≤ P.lo := by
      rw [e] at hP
      rcases List.mem_append.1 hP with h | h
      · exact absurd hPo (k3 P h hPpos hPy)
      · rcases List.mem_cons.1 h with h | h
        · rw [h]
        · have := ht.split.2.2.2 P h
          exact ht.split.2.2.1.trans this.1
    show max y z ≤ t
    refine max_le hy.le ?_
    rcases k4 with ⟨as', q', m1, m2, m3, m4⟩ | ⟨_, _, _, m4 | m4⟩
    · have ht2 := ht
      rw [m1, List.append_assoc, List.singleton_append] at ht2
      have hadj := ht2.adj
      have := (hS.mid q'.lo q'.hi ht2.split.2.2.1).2
      rw [m4]
      rw [hadj.1] at this
      rw [← hadj.1] at this
      exact this.trans ((hadj.1.le.trans hPp).trans hP1.le)
    · rw [m4]; exact hy.le
    · rw [m4]; exact hPp.trans hP1.le
  | some (.touch z), hsp =>
    obtain ⟨as, p, q, bs, e, k1, k2, k3, k4, k5⟩ := hsp
    have ht := hwf.2
    rw [e] at ht
    have hpl := ht.split.2.2.1
    have hz := hS.mid p.lo p.hi hpl
    have hyz : y < z := by rw [k4]; exact lt_of_lt_of_le k3 hz.1
    refine ⟨_, by dsimp only; rw [if_pos hyz], ?_⟩
    show z ≤ t
    rw [e] at hP
    have hPp : p.hi ≤ P.lo := by
      rcases List.mem_append.1 hP with h | h
      · exact absurd hPo (k5 P h hPpos hPy)
      · rcases List.mem_cons.1 h with h | h
        · rw [h, k1] at hPo; cases hPo
        · exact (ht.split.2.2.2 P h).1
    rw [k4]
    exact hz.2.trans (hPp.trans hP1.le)

/-- If the conservative comparison ends the scan, then the other segment is far away until the height bound. -/
theorem blocks_sound {E : Env K} {m : P} {y t hb : K} (hS : E.Sound px m) {a b : Nat} (ha : OnLine E y a) (hb' : OnLine E y b) (hy : y < t)
    (h1 : t ≤ E.endY a) (h2 : t ≤ E.endY b) (h : blocks E y hb a b = true) (hle : t ≤ hb) : px a t + m ≤ px b t := by
  have hB := both_of ha hb' hy h1 h2
  obtain ⟨_, hwf, hst⟩ := hS.wf a ha.1 b hb'.1 t hB
  unfold blocks at h
  split at h
  · simp at h
  · rename_i p hp
    rw [Bool.and_eq_true, decide_eq_true_eq, decide_eq_true_eq] at h
    obtain ⟨hpy, as, bs, e, has⟩ := List.find?_eq_some_iff_append.1 hp
    have hpy : y < p.hi := by simpa using hpy
    have ht := hwf.2
    rw [e] at ht
    have hlo : p.lo ≤ y := by
      rcases ht.prev with ⟨_, h3⟩ | ⟨as', c, h3, h4⟩
      · rw [h3]; exact hst.trans (max_le ha.2.1 hb'.2.1)
      · have := has c (by rw [h3]; simp)
        rw [← h4]
        simpa using this
    exact hS.cons a ha.1 b hb'.1 p (by rw [e]; simp) h.1 t (hlo.trans hy.le) (hle.trans h.2) hB

/-- What a scan from `seg` over the segments `X`, the last of which will be on the wrong side at the height `t`, has found: a segment that ends
before, an event of `seg`, or a segment in between that is far away. -/
def Explained (E : Env K) (m : P) (y t : K) (q : List (IEvent K)) (far : Nat → Prop) (seg : Nat) (X : List Nat) (b : Nat) : Prop :=
  (∃ o ∈ X ++ [b], y < E.endY o ∧ E.endY o ≤ t) ∨
  (∃ o ∈ X ++ [b], y < E.endY o ∧ ∃ ev ∈ q, ev.y ≤ t ∧ ((ev.left = seg ∧ ev.right = o) ∨ (ev.left = o ∧ ev.right = seg))) ∨
  ∃ X1 k X2, X = X1 ++ k :: X2 ∧ t ≤ E.endY k ∧ far k

theorem Explained.cons {E : Env K} {m : P} {y t : K} {q : List (IEvent K)} {far : Nat → Prop} {seg : Nat} {X : List Nat} {b : Nat} (o : Nat)
    (h : Explained E m y t q far seg X b) : Explained E m y t q far seg (o :: X) b := by
  rcases h with ⟨x, h1, h2⟩ | ⟨x, h1, h2⟩ | ⟨X1, k, X2, h1, h2⟩
  · exact .inl ⟨x, by rw [List.cons_append]; exact List.mem_cons_of_mem _ h1, h2⟩
  · exact .inr (.inl ⟨x, by rw [List.cons_append]; exact List.mem_cons_of_mem _ h1, h2⟩)
  · exact .inr (.inr ⟨o :: X1, k, X2, by rw [h1]; rfl, h2⟩)

theorem scanRightLoop_keep {E : Env K} {y : K} {seg : Nat} (rest : List Entry) :
    ∀ {hb : K} {q q' : List (IEvent K)}, scanRightLoop E y seg rest hb q = some q' → ∀ e ∈ q, e ∈ q' := by
  induction rest with
  | nil => intro hb q q' h; simp only [scanRightLoop, Option.some.injEq] at h; subst h; exact fun _ h => h
  | cons o rest ih =>
    intro hb q q' h
    simp only [scanRightLoop] at h
    by_cases h1 : E.endY o.seg = y
    · rw [if_pos h1] at h; exact ih h
    rw [if_neg h1] at h
    by_cases h2 : E.farRight seg o.seg = true
    · rw [if_pos h2] at h; simp only [Option.some.injEq] at h; subst h; exact fun _ h => h
    · rw [if_neg h2] at h
      split at h
      · simp at h
      · split_ifs at h
        · simp only [Option.some.injEq] at h; subst h; exact fun _ h => h
        · exact ih h
      · split_ifs at h
        · simp only [Option.some.injEq] at h; subst h; exact fun e he => (mem_pushInt _ _ _).2 (.inr he)
        · exact fun e he => ih h e ((mem_pushInt _ _ _).2 (.inr he))

theorem scanLeftLoop_keep {E : Env K} {y : K} {seg : Nat} (rest : List Entry) :
    ∀ {hb : K} {q q' : List (IEvent K)}, scanLeftLoop E y seg rest hb q = some q' → ∀ e ∈ q, e ∈ q' := by
  induction rest with
  | nil => intro hb q q' h; simp only [scanLeftLoop, Option.some.injEq] at h; subst h; exact fun _ h => h
  | cons o rest ih =>
    intro hb q q' h
    simp only [scanLeftLoop] at h
    by_cases h1 : E.endY o.seg = y
    · rw [if_pos h1] at h; exact ih h
    rw [if_neg h1] at h
    by_cases h2 : E.farLeft seg o.seg = true
    · rw [if_pos h2] at h; simp only [Option.some.injEq] at h; subst h; exact fun _ h => h
    · rw [if_neg h2] at h
      split at h
      · simp at h
      · split_ifs at h
        · simp only [Option.some.injEq] at h; subst h; exact fun _ h => h
        · exact ih h
      · split_ifs at h
        · simp only [Option.some.injEq] at h; subst h; exact fun e he => (mem_pushInt _ _ _).2 (.inr he)
        · exact fun e he => ih h e ((mem_pushInt _ _ _).2 (.inr he))

theorem not_viol {E : Env K} {m : P} {t : K} (hS : E.Sound px m) {a b : Nat} (h : px a t + m ≤ px b t) : ¬ Viol px m t a b := by
  intro hv
  unfold Viol at hv
  have h1 : px b t ≤ px b t + m := le_add_of_nonneg_right hS.nonneg
  have h2 : px a t ≤ px a t + m := le_add_of_nonneg_right hS.nonneg
  exact absurd (lt_of_le_of_lt h1 hv) (not_lt.2 (h2.trans h))

theorem scanRightLoop_explains {E : Env K} {m : P} {y t : K} (hS : E.Sound px m) {seg b : Nat} (hseg : OnLine E y seg) (hy : y < t) (ht : t ≤ E.endY seg)
    (htb : t ≤ E.endY b) (hb : OnLine E y b) (hv : Viol px m t seg b) (rest : List Entry) :
    ∀ (X : List Entry) (be : Entry) (B : List Entry), rest = X ++ be :: B → be.seg = b → (∀ e ∈ rest, OnLine E y e.seg) →
      ∀ {hbd : K} {q q' : List (IEvent K)}, scanRightLoop E y seg rest hbd q = some q' →
      hbd < t ∨ Explained E m y t q' (fun k => px seg t + m ≤ px k t) seg (X.map Entry.seg) b := by
  induction rest with
  | nil => intro X be B h; simp at h
  | cons o rest ih =>
    intro X be B hX hbe hon hbd q q' h
    have hono := hon o (by simp)
    have hon' : ∀ e ∈ rest, OnLine E y e.seg := fun e he => hon e (List.mem_cons_of_mem _ he)
    have hXc : (X = [] ∧ o = be ∧ rest = B) ∨ ∃ X', X = o :: X' ∧ rest = X' ++ be :: B := by
      cases X with
      | nil => left; simpa using hX
      | cons x X => right; rw [List.cons_append, List.cons.injEq] at hX; exact ⟨X, by rw [hX.1], hX.2⟩
    have hob : o.seg ∈ X.map Entry.seg ++ [b] := by
      rcases hXc with ⟨rfl, rfl, _⟩ | ⟨X', rfl, _⟩
      · simp [hbe]
      · simp
    -- everything that recursion gives
    have hrec : ∀ (hbd' : K) (q1 : List (IEvent K)), scanRightLoop E y seg rest hbd' q1 = some q' → X ≠ [] →
        hbd' < t ∨ Explained E m y t q' (fun k => px seg t + m ≤ px k t) seg (X.map Entry.seg) b := by
      intro hbd' q1 hq hne
      rcases hXc with ⟨h1, _⟩ | ⟨X', h1, h2⟩
      · exact absurd h1 hne
      · rcases ih X' be B h2 hbe hon' hq with h3 | h3
        · exact .inl h3
        · rw [h1, List.map_cons]; exact .inr (h3.cons _)
    have hfar : t ≤ E.endY o.seg → px seg t + m ≤ px o.seg t →
        Explained E m y t q' (fun k => px seg t + m ≤ px k t) seg (X.map Entry.seg) b := by
      intro h1 h2
      rcases hXc with ⟨rfl, rfl, _⟩ | ⟨X', rfl, _⟩
      · rw [hbe] at h2; exact absurd hv (not_viol hS h2)
      · exact .inr (.inr ⟨[], o.seg, X'.map Entry.seg, rfl, h1, h2⟩)
    simp only [scanRightLoop] at h
    by_cases h1 : E.endY o.seg = y
    · rw [if_pos h1] at h
      refine hrec _ _ h ?_
      rintro rfl
      rcases hXc with ⟨_, rfl, _⟩ | ⟨X', h2, _⟩
      · rw [hbe] at h1; rw [h1] at htb; exact absurd htb (not_le.2 hy)
      · simp at h2
    rw [if_neg h1] at h
    have hlive : y < E.endY o.seg := lt_of_le_of_ne hono.2.2 (Ne.symm h1)
    by_cases hend : E.endY o.seg ≤ t
    · exact .inr (.inl ⟨_, hob, hlive, hend⟩)
    rw [not_le] at hend
    by_cases h2 : E.farRight seg o.seg = true
    · exact .inr (hfar hend.le (hS.farRight _ hseg.1 _ hono.1 h2 t (both_of hseg hono hy ht hend.le)))
    rw [if_neg h2] at h
    split at h
    · simp at h
    · rename_i hev
      have hne : X ≠ [] := by
        rintro rfl
        rcases hXc with ⟨_, rfl, _⟩ | ⟨X', h2, _⟩
        · rw [hbe] at hev
          obtain ⟨ev, h3, _⟩ := touchEvent_complete hS hseg hb hy ht htb hv
          rw [h3] at hev; simp at hev
        · simp at h2
      have hmin : min hbd (E.endY o.seg) < t → hbd < t := by
        intro h3
        rcases min_lt_iff.1 h3 with h4 | h4
        · exact h4
        · exact absurd h4 (not_lt.2 hend.le)
      by_cases h3 : blocks E y (min hbd (E.endY o.seg)) seg o.seg = true
      · by_cases h4 : t ≤ min hbd (E.endY o.seg)
        · exact .inr (hfar hend.le (blocks_sound hS hseg hono hy ht hend.le h3 h4))
        · exact .inl (hmin (not_le.1 h4))
      · rw [if_neg h3] at h
        exact (hrec _ _ h hne).imp hmin id
    · rename_i ev hev
      have hsegs := touchEvent_segs hev
      have hevq : ev ∈ q' := by
        by_cases h3 : blocks E y (min (min hbd (E.endY o.seg)) ev.y) seg o.seg = true
        · rw [if_pos h3] at h
          simp only [Option.some.injEq] at h
          subst h
          exact (mem_pushInt _ _ _).2 (.inl rfl)
        · rw [if_neg h3] at h
          exact scanRightLoop_keep _ h _ ((mem_pushInt _ _ _).2 (.inl rfl))
      by_cases hevt : ev.y ≤ t
      · exact .inr (.inr (.inl ⟨_, hob, hlive, ev, hevq, hevt, hsegs⟩))
      have hne : X ≠ [] := by
        rintro rfl
        rcases hXc with ⟨_, rfl, _⟩ | ⟨X', h2, _⟩
        · rw [hbe] at hev
          obtain ⟨ev', h3, h4⟩ := touchEvent_complete hS hseg hb hy ht htb hv
          rw [h3] at hev
          simp only [Option.some.injEq] at hev
          subst hev
          exact hevt h4
        · simp at h2
      rw [not_le] at hevt
      have hmin : min (min hbd (E.endY o.seg)) ev.y < t → hbd < t := by
        intro h3
        rcases min_lt_iff.1 h3 with h4 | h4
        · rcases min_lt_iff.1 h4 with h4 | h4
          · exact h4
          · exact absurd h4 (not_lt.2 hend.le)
        · exact absurd h4 (not_lt.2 hevt.le)
      by_cases h3 : blocks E y (min (min hbd (E.endY o.seg)) ev.y) seg o.seg = true
      · by_cases h4 : t ≤ min (min hbd (E.endY o.seg)) ev.y
        · exact .inr (hfar hend.le (blocks_sound hS hseg hono hy ht hend.le h3 h4))
        · exact .inl (hmin (not_le.1 h4))
      · rw [if_neg h3] at h
        exact (hrec _ _ h hne).imp hmin id

theorem scanLeftLoop_explains {E : Env K} {m : P} {y t : K} (hS : E.Sound px m) {seg b : Nat} (hseg : OnLine E y seg) (hy : y < t) (ht : t ≤ E.endY seg)
    (htb : t ≤ E.endY b) (hb : OnLine E y b) (hv : Viol px m t b seg) (rest : List Entry) :
    ∀ (X : List Entry) (be : Entry) (B : List Entry), rest = X ++ be :: B → be.seg = b → (∀ e ∈ rest, OnLine E y e.seg) →
      ∀ {hbd : K} {q q' : List (IEvent K)}, scanLeftLoop E y seg rest hbd q = some q' →
      hbd < t ∨ Explained E m y t q' (fun k => px k t + m ≤ px seg t) seg (X.map Entry.seg) b := by
  induction rest with
  | nil => intro X be B h; simp at h
  | cons o rest ih =>
    intro X be B hX hbe hon hbd q q' h
    have hono := hon o (by simp)
    have hon' : ∀ e ∈ rest, OnLine E y e.seg := fun e he => hon e (List.mem_cons_of_mem _ he)
    have hXc : (X = [] ∧ o = be ∧ rest = B) ∨ ∃ X', X = o :: X' ∧ rest = X' ++ be :: B := by
      cases X with
      | nil => left; simpa using hX
      | cons x X => right; rw [List.cons_append, List.cons.injEq] at hX; exact ⟨X, by rw [hX.1], hX.2⟩
    have hob : o.seg ∈ X.map Entry.seg ++ [b] := by
      rcases hXc with ⟨rfl, rfl, _⟩ | ⟨X', rfl, _⟩
      · simp [hbe]
      · simp
    have hrec : ∀ (hbd' : K) (q1 : List (IEvent K)), scanLeftLoop E y seg rest hbd' q1 = some q' → X ≠ [] →
        hbd' < t ∨ Explained E m y t q' (fun k => px k t + m ≤ px seg t) seg (X.map Entry.seg) b := by
      intro hbd' q1 hq hne
      rcases hXc with ⟨h1, _⟩ | ⟨X', h1, h2⟩
      · exact absurd h1 hne
      · rcases ih X' be B h2 hbe hon' hq with h3 | h3
        · exact .inl h3
        · rw [h1, List.map_cons]; exact .inr (h3.cons _)
    have hfar : t ≤ E.endY o.seg → px o.seg t + m ≤ px seg t →
        Explained E m y t q' (fun k => px k t + m ≤ px seg t) seg (X.map Entry.seg) b := by
      intro h1 h2
      rcases hXc with ⟨rfl, rfl, _⟩ | ⟨X', rfl, _⟩
      · rw [hbe] at h2; exact absurd hv (not_viol hS h2)
      · exact .inr (.inr ⟨[], o.seg, X'.map Entry.seg, rfl, h1, h2⟩)
    simp only [scanLeftLoop] at h
    by_cases h1 : E.endY o.seg = y
    · rw [if_pos h1] at h
      refine hrec _ _ h ?_
      rintro rfl
      rcases hXc with ⟨_, rfl, _⟩ | ⟨X', h2, _⟩
      · rw [hbe] at h1; rw [h1] at htb; exact absurd htb (not_le.2 hy)
      · simp at h2
    rw [if_neg h1] at h
    have hlive : y < E.endY o.seg := lt_of_le_of_ne hono.2.2 (Ne.symm h1)
    by_cases hend : E.endY o.seg ≤ t
    · exact .inr (.inl ⟨_, hob, hlive, hend⟩)
    rw [not_le] at hend
    by_cases h2 : E.farLeft seg o.seg = true
    · exact .inr (hfar hend.le (hS.farLeft _ hono.1 _ hseg.1 h2 t (both_of hono hseg hy hend.le ht)))
    rw [if_neg h2] at h
    split at h
    · simp at h
    · rename_i hev
      have hne : X ≠ [] := by
        rintro rfl
        rcases hXc with ⟨_, rfl, _⟩ | ⟨X', h2, _⟩
        · rw [hbe] at hev
          obtain ⟨ev, h3, _⟩ := touchEvent_complete hS hb hseg hy htb ht hv
          rw [h3] at hev; simp at hev
        · simp at h2
      have hmin : min hbd (E.endY o.seg) < t → hbd < t := by
        intro h3
        rcases min_lt_iff.1 h3 with h4 | h4
        · exact h4
        · exact absurd h4 (not_lt.2 hend.le)
      by_cases h3 : blocks E y (min hbd (E.endY o.seg)) o.seg seg = true
      · by_cases h4 : t ≤ min hbd (E.endY o.seg)
        · exact .inr (hfar hend.le (blocks_sound hS hono hseg hy hend.le ht h3 h4))
        · exact .inl (hmin (not_le.1 h4))
      · rw [if_neg h3] at h
        exact (hrec _ _ h hne).imp hmin id
    · rename_i ev hev
      have hsegs := touchEvent_segs hev
      have hevq : ev ∈ q' := by
        by_cases h3 : blocks E y (min (min hbd (E.endY o.seg)) ev.y) o.seg seg = true
        · rw [if_pos h3] at h
          simp only [Option.some.injEq] at h
          subst h
          exact (mem_pushInt _ _ _).2 (.inl rfl)
        · rw [if_neg h3] at h
          exact scanLeftLoop_keep _ h _ ((mem_pushInt _ _ _).2 (.inl rfl))
      by_cases hevt : ev.y ≤ t
      · exact .inr (.inr (.inl ⟨_, hob, hlive, ev, hevq, hevt, hsegs.symm⟩))
      have hne : X ≠ [] := by
        rintro rfl
        rcases hXc with ⟨_, rfl, _⟩ | ⟨X', h2, _⟩
        · rw [hbe] at hev
          obtain ⟨ev', h3, h4⟩ := touchEvent_complete hS hb hseg hy htb ht hv
          rw [h3] at hev
          simp only [Option.some.injEq] at hev
          subst hev
          exact hevt h4
        · simp at h2
      rw [not_le] at hevt
      have hmin : min (min hbd (E.endY o.seg)) ev.y < t → hbd < t := by
        intro h3
        rcases min_lt_iff.1 h3 with h4 | h4
        · rcases min_lt_iff.1 h4 with h4 | h4
          · exact h4
          · exact absurd h4 (not_lt.2 hend.le)
        · exact absurd h4 (not_lt.2 hevt.le)
      by_cases h3 : blocks E y (min (min hbd (E.endY o.seg)) ev.y) o.seg seg = true
      · by_cases h4 : t ≤ min (min hbd (E.endY o.seg)) ev.y
        · exact .inr (hfar hend.le (blocks_sound hS hono hseg hy hend.le ht h3 h4))
        · exact .inl (hmin (not_le.1 h4))
      · rw [if_neg h3] at h
        exact (hrec _ _ h hne).imp hmin id

end Verif.Sweep
