import Verif.Sweep.OrderMain

/-!
# Segments that do not cross

If no two segments cross and the comparisons tell any two different ones apart, the sweep line is always in the order of the
positions: nothing is ever swapped. Segments may share end points, touch, and even coincide.
-/

namespace Verif.Sweep
open Verif.Curve Verif.Range Verif.Topo
set_option linter.unusedSectionVars false

section
variable {K : Type} [LinearOrder K]

/-- At some height that they have in common `a` is to the left of `b`. -/
def Env.Lt (E : Env K) (a b : Nat) : Prop :=
  ∃ t, (E.startY a ≤ t ∧ t ≤ E.endY a) ∧ (E.startY b ≤ t ∧ t ≤ E.endY b) ∧ E.atY a t < E.atY b t

/-- The segment is on the sweep line at the height `y`. -/
def Env.On (E : Env K) (y : K) (a : Nat) : Prop := E.Tall a ∧ E.startY a ≤ y ∧ y ≤ E.endY a

/-- No two segments cross, the comparisons are never wrong, and they tell apart any two segments that differ at a height they have
in common. The bounds used for finding the place of a segment are strict. -/
structure Env.Planar (E : Env K) : Prop where
  nocross : ∀ a b, E.Tall a → E.Tall b → E.Lt a b → ¬ E.Lt b a
  wf : ∀ a b t, E.On t a → E.On t b → WF (E.cmp a b) ∧ (E.cmp a b).start = max (E.startY a) (E.startY b) ∧
    EndsAt (E.cmp a b) (min (E.endY a) (E.endY b))
  strict : ∀ a b t, E.On t a → E.On t b → max (E.startY a) (E.startY b) < min (E.endY a) (E.endY b) →
    ∀ p ∈ (E.cmp a b).iter, p.order ≠ .ish → p.lo < p.hi
  left : ∀ a b t, E.On t a → E.On t b → ∀ p ∈ (E.cmp a b).iter, p.order = .left → E.Lt a b
  right : ∀ a b t, E.On t a → E.On t b → ∀ p ∈ (E.cmp a b).iter, p.order = .right → E.Lt b a
  resolved : ∀ a b, E.Tall a → E.Tall b → E.Lt a b → (E.cmp a b).orderAfter (max (E.startY a) (E.startY b)) = some .left ∧
    (E.cmp b a).orderAfter (max (E.startY a) (E.startY b)) = some .right
  lower : ∀ a t, E.On t a → E.lowerBound a < E.atY a t
  upper : ∀ a t, E.On t a → E.atY a t < E.upperBound a
  start : ∀ a, E.Tall a → E.atY a (E.startY a) = E.startX a
  mid : ∀ a b : K, a ≤ b → a ≤ E.mid a b ∧ E.mid a b ≤ b

/-- The line is in the order of the positions. -/
def Sorted (E : Env K) (line : List Entry) : Prop := line.Pairwise fun e f => ¬ E.Lt f.seg e.seg

/-- All events are touches. -/
def Touching (E : Env K) (q : List (IEvent K)) : Prop :=
  ∀ ev ∈ q, E.Lt ev.right ev.left ∧ ev.y < E.endY ev.left ∧ ev.y < E.endY ev.right

variable {E : Env K}

theorem lt_through (hP : E.Planar) {a b c : Nat} {y : K} (ha : E.On y a) (hb : E.On y b) (hc : E.On y c) (hs : E.startY b = y)
    (h1 : E.Lt a b) (h2 : E.Lt b c) : E.Lt a c := by
  have n1 := hP.nocross a b ha.1 hb.1 h1
  have n2 := hP.nocross b c hb.1 hc.1 h2
  obtain ⟨t1, p1, p2, p3⟩ := h1
  obtain ⟨t2, q1, q2, q3⟩ := h2
  rcases le_total t1 t2 with h | h
  · have hct : E.startY c ≤ t1 ∧ t1 ≤ E.endY c := ⟨hc.2.1.trans (hs ▸ p2.1), h.trans q2.2⟩
    refine ⟨t1, p1, hct, lt_of_lt_of_le p3 ?_⟩
    by_contra hlt
    exact n2 ⟨t1, hct, p2, not_le.1 hlt⟩
  · have hat : E.startY a ≤ t2 ∧ t2 ≤ E.endY a := ⟨ha.2.1.trans (hs ▸ q1.1), h.trans p1.2⟩
    refine ⟨t2, hat, q2, lt_of_le_of_lt ?_ q3⟩
    by_contra hlt
    exact n1 ⟨t2, q1, hat, not_le.1 hlt⟩

/-- The place found for a segment: everything before it is not to its right, everything after it is not to its left. -/
def Fits (E : Env K) (seg : Nat) (A B : List Entry) : Prop :=
  (A = [] ∨ ∃ A' e, A = A' ++ [e] ∧ E.Lt e.seg seg) ∧ ∀ f ∈ B, ¬ E.Lt f.seg seg

theorem Fits.sorted (hP : E.Planar) {y : K} {seg : Nat} {A B : List Entry} (hon : ∀ f ∈ A ++ B, E.On y f.seg) (hseg : E.On y seg) (hst : E.startY seg = y)
    (hs : Sorted E (A ++ B)) (h : Fits E seg A B) : (∀ e ∈ A, ¬ E.Lt seg e.seg) ∧ ∀ f ∈ B, ¬ E.Lt f.seg seg := by
  refine ⟨?_, h.2⟩
  rcases h.1 with rfl | ⟨A', l, rfl, hl⟩
  · simp
  intro e he hlt
  have hol := hon l (by simp)
  have hoe := hon e (by simp only [List.mem_append] at he ⊢; exact .inl he)
  rw [List.mem_append, List.mem_singleton] at he
  rcases he with he | rfl
  · have := lt_through hP hol hseg hoe hst hl hlt
    unfold Sorted at hs
    rw [List.append_assoc, List.pairwise_append] at hs
    exact hs.2.2 e he l (by simp) this
  · exact hP.nocross _ _ hol.1 hseg.1 hl hlt

theorem after_fits (hP : E.Planar) {y : K} {seg : Nat} {B1 B2 : List Entry} {f : Entry} (hon : ∀ g ∈ B1 ++ f :: B2, E.On y g.seg) (hseg : E.On y seg)
    (hst : E.startY seg = y) (hs : Sorted E (B1 ++ f :: B2)) (h1 : ∀ g ∈ B1, ¬ E.Lt g.seg seg) (h2 : E.Lt seg f.seg) :
    ∀ g ∈ B1 ++ f :: B2, ¬ E.Lt g.seg seg := by
  intro g hg hlt
  have hog := hon g hg
  have hof := hon f (by simp)
  rw [List.mem_append, List.mem_cons] at hg
  rcases hg with hg | rfl | hg
  · exact h1 g hg hlt
  · exact hP.nocross _ _ hseg.1 hof.1 h2 hlt
  · have := lt_through hP hog hseg hof hst hlt h2
    unfold Sorted at hs
    rw [List.pairwise_append, List.pairwise_cons] at hs
    exact hs.2.1.1 g hg this

theorem orderAt_mem {c : CurveOrder K} {y : K} {o : Order} (h : c.orderAt y = some o) : ∃ p ∈ c.iter, p.order = o := by
  unfold CurveOrder.orderAt at h
  obtain ⟨p, h1, h2⟩ := Option.map_eq_some_iff.1 h
  exact ⟨p, List.mem_of_find?_eq_some h1, h2⟩

theorem pieces_mem (l : List (Curve.Entry K)) : ∀ (a : K) (e : Curve.Entry K), e ∈ l → ∃ p ∈ pieces a l, p.order = e.order := by
  induction l with
  | nil => intro a e he; simp at he
  | cons f l ih =>
    intro a e he
    rcases List.mem_cons.1 he with rfl | he
    · exact ⟨⟨a, e.stop, e.order⟩, by simp [pieces], rfl⟩
    · obtain ⟨p, h1, h2⟩ := ih f.stop e he
      exact ⟨p, by simp [pieces, h1], h2⟩

theorem orderAfter_mem {c : CurveOrder K} {y : K} {o : Order} (ho : o ≠ .ish) (h : c.orderAfter y = some o) : ∃ p ∈ c.iter, p.order = o := by
  unfold CurveOrder.orderAfter at h
  split at h
  · simp at h
  rename_i last hl
  split_ifs at h with hy
  · simp only [Option.some.injEq] at h
    rw [← h]
    exact pieces_mem c.cmps c.start last (List.mem_of_getLast? hl)
  · simp only [Option.some.injEq] at h
    split at h
    · exact absurd h.symm ho
    · rename_i p hp
      exact ⟨p, (List.dropWhile_sublist _).subset (List.mem_of_find?_eq_some hp), h⟩

theorem insertionScan_fits (hP : E.Planar) {y : K} {seg : Nat} (hseg : E.On y seg) (hst : E.startY seg = y) (es : List Entry) :
    ∀ (P Q : List Entry) (i idx r : Nat), (∀ f ∈ P ++ Q ++ es, E.On y f.seg) → Sorted E (P ++ Q ++ es) → P.length = idx → (P ++ Q).length = i →
      (P = [] ∨ ∃ A' e, P = A' ++ [e] ∧ E.Lt e.seg seg) → (∀ f ∈ Q, ¬ E.Lt f.seg seg) → insertionScan E y seg es i idx = some r →
      ∃ A B, P ++ Q ++ es = A ++ B ∧ A.length = r ∧ Fits E seg A B := by
  induction es with
  | nil =>
    intro P Q i idx r hon hs h1 h2 h3 h4 h
    simp only [insertionScan, Option.some.injEq] at h
    exact ⟨P, Q, by simp, by omega, h3, h4⟩
  | cons e es ih =>
    intro P Q i idx r hon hs h1 h2 h3 h4 h
    have hoe := hon e (by simp)
    have hmax : max (E.startY e.seg) (E.startY seg) = y := by rw [hst]; exact max_eq_right hoe.2.1
    have hmax' : max (E.startY seg) (E.startY e.seg) = y := by rw [max_comm]; exact hmax
    have step_left : E.Lt e.seg seg → insertionScan E y seg es (i + 1) (i + 1) = some r → ∃ A B, P ++ Q ++ e :: es = A ++ B ∧ A.length = r ∧ Fits E seg A B := by
      intro hlt h
      have e1 : P ++ Q ++ e :: es = (P ++ Q ++ [e]) ++ [] ++ es := by simp
      rw [e1] at hon hs ⊢
      refine ih _ _ (i + 1) (i + 1) r hon hs (by simp at h2 ⊢; omega) (by simp at h2 ⊢; omega) (.inr ⟨P ++ Q, e, rfl, hlt⟩) (by simp) h
    have step_right : ¬ E.Lt e.seg seg → insertionScan E y seg es (i + 1) idx = some r → ∃ A B, P ++ Q ++ e :: es = A ++ B ∧ A.length = r ∧ Fits E seg A B := by
      intro hlt h
      have e1 : P ++ Q ++ e :: es = P ++ (Q ++ [e]) ++ es := by simp
      rw [e1] at hon hs ⊢
      refine ih _ _ (i + 1) idx r hon hs h1 (by simp at h2 ⊢; omega) h3 ?_ h
      intro f hf
      rw [List.mem_append, List.mem_singleton] at hf
      rcases hf with hf | rfl
      · exact h4 f hf
      · exact hlt
    simp only [insertionScan] at h
    split at h
    · simp at h
    · -- to the right
      rename_i ho
      obtain ⟨p, hp, hpo⟩ := orderAt_mem ho
      have hlt := hP.right _ _ y hoe hseg p hp hpo
      simp only [Option.some.injEq] at h
      refine ⟨P, Q ++ e :: es, by simp, by omega, h3, ?_⟩
      refine after_fits hP (fun g hg => hon g (by rw [List.append_assoc]; exact List.mem_append_right _ hg)) hseg hst ?_ h4 hlt
      unfold Sorted at hs ⊢
      rw [List.append_assoc, List.pairwise_append] at hs
      exact hs.2.1
    · rename_i ho
      split at h
      · simp at h
      · rename_i ha
        obtain ⟨p, hp, hpo⟩ := orderAfter_mem (by simp) ha
        exact step_left (hP.left _ _ y hoe hseg p hp hpo) h
      · rename_i o hne ha
        refine step_right (fun hlt => ?_) h
        have := (hP.resolved _ _ hoe.1 hseg.1 hlt).1
        rw [hmax, ha] at this
        simp only [Option.some.injEq] at this
        exact hne this
    · rename_i ho
      obtain ⟨p, hp, hpo⟩ := orderAt_mem ho
      exact step_left (hP.left _ _ y hoe hseg p hp hpo) h

theorem insertionIdx_fits (hP : E.Planar) (hpp : E.PP) {y : K} {seg : Nat} (hseg : E.On y seg) (hst : E.startY seg = y) {line : List Entry} {pos : Nat}
    (hon : ∀ f ∈ line, E.On y f.seg) (hs : Sorted E line) (h : insertionIdx E y line seg = some pos) :
    ∃ A B, line = A ++ B ∧ A.length = pos ∧ Fits E seg A B := by
  have hat : E.atY seg y = E.startX seg := by rw [← hst]; exact hP.start seg hseg.1
  have hlt_of : ∀ f ∈ line, E.upperBound f.seg ≤ E.startX seg → E.Lt f.seg seg := by
    intro f hf hle
    have ho := hon f hf
    exact ⟨y, ho.2, hseg.2, by rw [hat]; exact lt_of_lt_of_le (hP.upper _ y ho) hle⟩
  have hgt_of : ∀ f ∈ line, E.startX seg ≤ E.lowerBound f.seg → E.Lt seg f.seg := by
    intro f hf hle
    have ho := hon f hf
    exact ⟨y, hseg.2, ho.2, by rw [hat]; exact lt_of_le_of_lt hle (hP.lower _ y ho)⟩
  have hsplit : ∀ n ≤ line.length, ∃ A B, line = A ++ B ∧ A.length = n := fun n hn => ⟨line.take n, line.drop n, by simp, by simp [hn]⟩
  have hlast : ∀ (Pr : Nat → Bool) (A B : List Entry), line = A ++ B → A.length = E.pp Pr (line.map Entry.seg) →
      A = [] ∨ ∃ A' e, A = A' ++ [e] ∧ Pr e.seg = true := by
    intro Pr A B e1 e2
    rcases List.eq_nil_or_concat A with h0 | ⟨A', e, h0⟩
    · exact .inl h0
    · right
      rw [List.concat_eq_append] at h0
      refine ⟨A', e, h0, ?_⟩
      refine hpp.left Pr (line.map Entry.seg) A'.length e.seg ?_ ?_
      · rw [← e2, h0]; simp
      · rw [List.getElem?_map, e1, h0]; simp
  simp only [insertionIdx] at h
  obtain ⟨n, hn⟩ : ∃ n, n = E.pp (fun a => decide (E.upperBound a ≤ E.startX seg)) (line.map Entry.seg) := ⟨_, rfl⟩
  rw [← hn] at h
  have hnl : n ≤ line.length := by have := hpp.le (fun a => decide (E.upperBound a ≤ E.startX seg)) (line.map Entry.seg); rw [← hn, List.length_map] at this; exact this
  obtain ⟨A, B, e1, e2⟩ := hsplit n hnl
  have hA : A = [] ∨ ∃ A' e, A = A' ++ [e] ∧ E.Lt e.seg seg := by
    rcases hlast _ A B e1 (by rw [e2, hn]) with h0 | ⟨A', e, h0, h3⟩
    · exact .inl h0
    · exact .inr ⟨A', e, h0, hlt_of e (by rw [e1, h0]; simp) (by simpa using h3)⟩
  split at h
  · rename_i hnone
    simp only [Option.some.injEq] at h
    refine ⟨A, B, e1, by omega, hA, ?_⟩
    rw [List.getElem?_eq_none_iff, e1, List.length_append] at hnone
    have : B = [] := List.eq_nil_of_length_eq_zero (by omega)
    rw [this]; simp
  · rename_i e he
    obtain ⟨B', hB⟩ : ∃ B', B = e :: B' := by
      rw [e1, List.getElem?_append_right (by omega), e2, Nat.sub_self] at he
      cases B with
      | nil => simp at he
      | cons b B' => simp only [List.getElem?_cons_zero, Option.some.injEq] at he; exact ⟨B', by rw [he]⟩
    have hme : e ∈ line := by rw [e1, hB]; simp
    have hoe := hon e hme
    have hmax' : max (E.startY seg) (E.startY e.seg) = y := by rw [hst]; exact max_eq_left hoe.2.1
    have hnext : line[n + 1]? = B'.head? := by
      rw [e1, hB, List.getElem?_append_right (by omega), e2]
      have : n + 1 - n = 1 := by omega
      rw [this]
      cases B' <;> rfl
    rw [ite_eq_iff] at h
    rcases h with ⟨hc, h⟩ | ⟨hc, h⟩
    · -- what follows is to the right
      have hB' : ∀ f ∈ B', ¬ E.Lt f.seg seg := by
        cases B' with
        | nil => simp
        | cons f B'' =>
          rw [hnext] at hc
          have hc : E.startX seg ≤ E.lowerBound f.seg := by simpa using hc
          have := after_fits hP (B1 := []) (f := f) (B2 := B'') (fun g hg => hon g (by rw [e1, hB]; simp at hg ⊢; tauto)) hseg hst
            (by
              unfold Sorted at hs ⊢
              rw [e1, hB, List.pairwise_append, List.pairwise_cons] at hs
              exact hs.2.1.2) (by simp) (hgt_of f (by rw [e1, hB]; simp) hc)
          simpa using this
      split at h
      · simp at h
      · rename_i ho
        simp only [Option.some.injEq] at h
        obtain ⟨p, hp, hpo⟩ := orderAfter_mem (by simp) ho
        refine ⟨A ++ [e], B', by rw [e1, hB]; simp, by simp; omega, .inr ⟨A, e, rfl, hP.right _ _ y hseg hoe p hp hpo⟩, hB'⟩
      · rename_i o hne ho
        simp only [Option.some.injEq] at h
        refine ⟨A, B, e1, by omega, hA, ?_⟩
        rw [hB]
        intro f hf
        rcases List.mem_cons.1 hf with rfl | hf
        · intro hlt
          have := (hP.resolved _ _ hoe.1 hseg.1 hlt).2
          rw [max_comm, hmax', ho] at this
          simp only [Option.some.injEq] at this
          exact hne this
        · exact hB' f hf
    · obtain ⟨k, hk⟩ : ∃ k, k = E.pp (fun a => decide ((E.cmp a seg).orderAt y = some .left)) (line.map Entry.seg) := ⟨_, rfl⟩
      rw [← hk] at h
      have hkl : k ≤ line.length := by
        have := hpp.le (fun a => decide ((E.cmp a seg).orderAt y = some .left)) (line.map Entry.seg); rw [← hk, List.length_map] at this; exact this
      obtain ⟨P, R, f1, f2⟩ := hsplit k hkl
      have hPl : P = [] ∨ ∃ A' e, P = A' ++ [e] ∧ E.Lt e.seg seg := by
        rcases hlast _ P R f1 (by rw [f2, hk]) with h0 | ⟨A', g, h0, h3⟩
        · exact .inl h0
        · obtain ⟨p, hp, hpo⟩ := orderAt_mem (by simpa using h3)
          exact .inr ⟨A', g, h0, hP.left _ _ y (hon g (by rw [f1, h0]; simp)) hseg p hp hpo⟩
      have hd : line.drop k = R := by rw [f1, ← f2]; simp
      rw [hd] at h
      have e3 : line = P ++ [] ++ R := by rw [f1]; simp
      rw [e3]
      exact insertionScan_fits hP hseg hst R P [] k k pos (by rw [← e3]; exact hon) (by rw [← e3]; exact hs) f2 (by simp [f2]) hPl (by simp) h

/-! ## Events -/

theorem touchEvent_touching (hP : E.Planar) {y : K} {a b : Nat} (ha : E.On y a) (hb : E.On y b) (hya : E.endY a ≠ y) (hyb : E.endY b ≠ y)
    (hab : ¬ E.Lt b a) {ev : IEvent K} (h : touchEvent E y a b = some (some ev)) :
    E.Lt ev.right ev.left ∧ ev.y < E.endY ev.left ∧ ev.y < E.endY ev.right := by
  obtain ⟨hwf, hst, hen⟩ := hP.wf a b y ha hb
  obtain ⟨r, hr, hsp⟩ := C11_next_touch E.mid (E.cmp a b) hwf y ((E.cmp a b).cmps.length + 1) (Nat.lt_succ_self _)
  unfold touchEvent touch at h
  rw [hr] at h
  have hlt : max (E.startY a) (E.startY b) < min (E.endY a) (E.endY b) :=
    lt_of_le_of_lt (max_le ha.2.1 hb.2.1) (lt_min (lt_of_le_of_ne ha.2.2 hya.symm) (lt_of_le_of_ne hb.2.2 hyb.symm))
  cases r with
  | none => simp at h
  | some i =>
    cases i with
    | cross z =>
      obtain ⟨as, p, bs, e1, e2, _⟩ := hsp
      exact absurd (hP.right a b y ha hb p (by rw [e1]; simp) e2) hab
    | touch z =>
      obtain ⟨as, p, q, bs, e1, e2, e3, e4, e5, _⟩ := hsp
      dsimp only at h
      by_cases hz : y < z
      case neg => rw [if_neg hz] at h; simp at h
      rw [if_pos hz] at h
      simp only [Option.some.injEq] at h
      subst h
      have hq : q ∈ (E.cmp a b).iter := by rw [e1]; simp
      have hpq := hP.strict a b y ha hb hlt q hq (by rw [e3]; simp)
      have ht := hwf.2
      rw [e1] at ht
      obtain ⟨_, _, t3, t4⟩ := ht.split
      have t5 := (t4 q (by simp)).1
      have hqe := wf_hi_le hwf hen q hq
      have hzl : z < min (E.endY a) (E.endY b) := by
        rw [e5]
        exact lt_of_le_of_lt (hP.mid _ _ t3).2 (lt_of_le_of_lt t5 (lt_of_lt_of_le hpq hqe))
      exact ⟨hP.left a b y ha hb q hq e3, lt_of_lt_of_le hzl (min_le_right _ _), lt_of_lt_of_le hzl (min_le_left _ _)⟩

theorem scanRightLoop_touching {P : IEvent K → Prop} {y : K} {seg : Nat} (l : List Entry)
    (hl : ∀ o ∈ l, E.endY o.seg ≠ y → ∀ ev, touchEvent E y seg o.seg = some (some ev) → P ev) :
    ∀ hb q q', scanRightLoop E y seg l hb q = some q' → (∀ ev ∈ q, P ev) → ∀ ev ∈ q', P ev := by
  induction l with
  | nil => intro hb q q' h hq; simp only [scanRightLoop, Option.some.injEq] at h; subst h; exact hq
  | cons o l ih =>
    intro hb q q' h hq
    have ih := ih fun o' ho' => hl o' (List.mem_cons_of_mem _ ho')
    simp only [scanRightLoop] at h
    by_cases h1 : E.endY o.seg = y
    · rw [if_pos h1] at h; exact ih _ _ _ h hq
    rw [if_neg h1] at h
    by_cases h2 : E.farRight seg o.seg = true
    · rw [if_pos h2, Option.some.injEq] at h; subst h; exact hq
    rw [if_neg h2] at h
    split at h
    · simp at h
    · by_cases h3 : blocks E y (min hb (E.endY o.seg)) seg o.seg = true
      · rw [if_pos h3, Option.some.injEq] at h; subst h; exact hq
      · rw [if_neg h3] at h; exact ih _ _ _ h hq
    · rename_i ev hev
      have hq' : ∀ e ∈ pushInt ev q, P e := by
        intro e he
        rcases (mem_pushInt ev q e).1 he with rfl | he
        · exact hl o (by simp) h1 _ hev
        · exact hq e he
      by_cases h3 : blocks E y (min (min hb (E.endY o.seg)) ev.y) seg o.seg = true
      · rw [if_pos h3, Option.some.injEq] at h; subst h; exact hq'
      · rw [if_neg h3] at h; exact ih _ _ _ h hq'

theorem scanLeftLoop_touching {P : IEvent K → Prop} {y : K} {seg : Nat} (l : List Entry)
    (hl : ∀ o ∈ l, E.endY o.seg ≠ y → ∀ ev, touchEvent E y o.seg seg = some (some ev) → P ev) :
    ∀ hb q q', scanLeftLoop E y seg l hb q = some q' → (∀ ev ∈ q, P ev) → ∀ ev ∈ q', P ev := by
  induction l with
  | nil => intro hb q q' h hq; simp only [scanLeftLoop, Option.some.injEq] at h; subst h; exact hq
  | cons o l ih =>
    intro hb q q' h hq
    have ih := ih fun o' ho' => hl o' (List.mem_cons_of_mem _ ho')
    simp only [scanLeftLoop] at h
    by_cases h1 : E.endY o.seg = y
    · rw [if_pos h1] at h; exact ih _ _ _ h hq
    rw [if_neg h1] at h
    by_cases h2 : E.farLeft seg o.seg = true
    · rw [if_pos h2, Option.some.injEq] at h; subst h; exact hq
    rw [if_neg h2] at h
    split at h
    · simp at h
    · by_cases h3 : blocks E y (min hb (E.endY o.seg)) o.seg seg = true
      · rw [if_pos h3, Option.some.injEq] at h; subst h; exact hq
      · rw [if_neg h3] at h; exact ih _ _ _ h hq
    · rename_i ev hev
      have hq' : ∀ e ∈ pushInt ev q, P e := by
        intro e he
        rcases (mem_pushInt ev q e).1 he with rfl | he
        · exact hl o (by simp) h1 _ hev
        · exact hq e he
      by_cases h3 : blocks E y (min (min hb (E.endY o.seg)) ev.y) o.seg seg = true
      · rw [if_pos h3, Option.some.injEq] at h; subst h; exact hq'
      · rw [if_neg h3] at h; exact ih _ _ _ h hq'

variable {y : K} {line : List Entry} {i : Nat} {q q' : List (IEvent K)}

theorem scanRight_touching (hP : E.Planar) (hon : ∀ f ∈ line, E.On y f.seg) (hs : Sorted E line) (h : scanRight E y line i q = some q')
    (hq : Touching E q) : Touching E q' := by
  unfold scanRight at h
  split at h
  · simp at h
  rename_i e he
  by_cases h1 : E.endY e.seg = y
  · rw [if_pos h1, Option.some.injEq] at h; subst h; exact hq
  rw [if_neg h1] at h
  obtain ⟨l1, l2, e1, e2, _, _⟩ := split_at he
  have hd : line.drop (i + 1) = l2 := by rw [e1, ← e2]; simp
  rw [hd] at h
  refine scanRightLoop_touching (P := fun ev => E.Lt ev.right ev.left ∧ ev.y < E.endY ev.left ∧ ev.y < E.endY ev.right) l2 ?_ _ _ _ h hq
  intro o ho hoy ev hev
  refine touchEvent_touching hP (hon e (by rw [e1]; simp)) (hon o (by rw [e1]; simp [ho])) h1 hoy ?_ hev
  unfold Sorted at hs
  rw [e1, List.pairwise_append, List.pairwise_cons] at hs
  exact hs.2.1.1 o ho

theorem scanLeft_touching (hP : E.Planar) (hon : ∀ f ∈ line, E.On y f.seg) (hs : Sorted E line) (h : scanLeft E y line i q = some q')
    (hq : Touching E q) : Touching E q' := by
  unfold scanLeft at h
  split at h
  · simp at h
  rename_i e he
  by_cases h1 : E.endY e.seg = y
  · rw [if_pos h1, Option.some.injEq] at h; subst h; exact hq
  rw [if_neg h1] at h
  obtain ⟨l1, l2, e1, e2, _, _⟩ := split_at he
  have hd : line.take i = l1 := by rw [e1, ← e2]; simp
  rw [hd] at h
  refine scanLeftLoop_touching (P := fun ev => E.Lt ev.right ev.left ∧ ev.y < E.endY ev.left ∧ ev.y < E.endY ev.right) l1.reverse ?_ _ _ _ h hq
  intro o ho hoy ev hev
  rw [List.mem_reverse] at ho
  refine touchEvent_touching hP (hon o (by rw [e1]; simp [ho])) (hon e (by rw [e1]; simp)) hoy h1 ?_ hev
  unfold Sorted at hs
  rw [e1, List.pairwise_append] at hs
  exact hs.2.2 o ho e (by simp)

theorem scanBoth_touching (hP : E.Planar) (hon : ∀ f ∈ line, E.On y f.seg) (hs : Sorted E line) (h : scanBoth E y line i q = some q')
    (hq : Touching E q) : Touching E q' := by
  unfold scanBoth at h
  rw [Option.bind_eq_some_iff] at h
  obtain ⟨q1, h1, h2⟩ := h
  exact scanLeft_touching hP hon hs h2 (scanRight_touching hP hon hs h1 hq)

theorem scanForRemoval_touching (hP : E.Planar) (hon : ∀ f ∈ line, E.On y f.seg) (hs : Sorted E line) (h : scanForRemoval E y line i q = some q')
    (hq : Touching E q) : Touching E q' := by
  unfold scanForRemoval at h
  split_ifs at h
  · exact scanBoth_touching hP hon hs h hq
  · simp only [Option.some.injEq] at h; subst h; exact hq

/-! ## The steps -/

/-- The state of the sweep in the middle of a line. -/
structure Good (E : Env K) (y : K) (s : State K) : Prop where
  y_eq : s.y = y
  on : ∀ f ∈ s.line, E.On y f.seg
  sorted : Sorted E s.line
  touching : Touching E s.ints

theorem Sorted.congr {l l' : List Entry} (h : l'.map Entry.seg = l.map Entry.seg) (hs : Sorted E l) : Sorted E l' := by
  unfold Sorted at hs ⊢
  rw [← List.pairwise_map (f := Entry.seg) (R := fun a b => ¬ E.Lt b a)] at hs ⊢
  rw [h]; exact hs

theorem Sorted.sublist {l l' : List Entry} (h : l'.Sublist l) (hs : Sorted E l) : Sorted E l' := List.Pairwise.sublist h hs

theorem handleEnter_good (hP : E.Planar) (hpp : E.PP) {s s' : State K} {seg : Nat} (hg : Good E y s) (hseg : seg ∈ E.segs)
    (hst : E.startY seg = y) (hdown : E.startY seg ≤ E.endY seg) (h : handleEnter E s seg = some s') : Good E y s' := by
  obtain ⟨hy, hon, hs, hq⟩ := hg
  unfold handleEnter at h
  by_cases hh : E.isHorizontal seg = true
  · rw [if_pos hh] at h
    simp only [Option.some.injEq] at h
    subst h
    exact ⟨hy, hon, hs, hq⟩
  rw [if_neg hh, hy] at h
  have hlt : E.startY seg < E.endY seg := lt_of_le_of_ne hdown (by simpa [Env.isHorizontal] using hh)
  have ho : E.On y seg := ⟨⟨hseg, hlt⟩, hst.le, by rw [← hst]; exact hdown⟩
  split at h
  · simp at h
  rename_i pos hpos
  obtain ⟨A, B, e1, e2, hf⟩ := insertionIdx_fits hP hpp ho hst hon hs hpos
  obtain ⟨f1, f2⟩ := hf.sorted hP (by rw [← e1]; exact hon) ho hst (by rw [← e1]; exact hs)
  have hins : ∀ e : Entry, e.seg = seg → Sorted E (A ++ e :: B) ∧ ∀ f ∈ A ++ e :: B, E.On y f.seg := by
    intro e he
    rw [e1] at hs hon
    constructor
    · unfold Sorted at hs ⊢
      rw [List.pairwise_append] at hs ⊢
      refine ⟨hs.1, List.pairwise_cons.2 ⟨fun f hf => by rw [he]; exact f2 f hf, hs.2.1⟩, ?_⟩
      intro a ha b hb
      rcases List.mem_cons.1 hb with rfl | hb
      · rw [he]; exact f1 a ha
      · exact hs.2.2 a ha b hb
    · intro f hf
      rw [List.mem_append, List.mem_cons] at hf
      rcases hf with hf | rfl | hf
      · exact hon f (by simp [hf])
      · rw [he]; exact ho
      · exact hon f (by simp [hf])
  split at h
  · simp at h
  · rename_i p hp
    unfold handleContinuation at h
    split at h
    · simp at h
    rename_i e he
    dsimp only at h
    rw [Option.map_eq_some_iff] at h
    obtain ⟨q', hq', rfl⟩ := h
    rw [hy] at hq'
    have hnew : Sorted E (s.line.set p { e with oldSeg := some e.seg, seg := seg, enter := true, exit := true }) ∧
        ∀ f ∈ s.line.set p { e with oldSeg := some e.seg, seg := seg, enter := true, exit := true }, E.On y f.seg := by
      have hp' : p = pos ∨ (p = pos - 1 ∧ 0 < pos) := by
        unfold continuationPos at hp
        split at hp
        · simp at hp
        · split_ifs at hp with g1 g2 g3 g4
          · simp only [Option.some.injEq] at hp; exact .inl hp.symm
          · simp only [Option.some.injEq] at hp; exact .inr ⟨hp.symm, g4.1⟩
          · simp at hp
          · simp at hp
      obtain ⟨e', he'⟩ : ∃ e' : Entry, e' = { e with oldSeg := some e.seg, seg := seg, enter := true, exit := true } := ⟨_, rfl⟩
      rw [← he']
      have hes : e'.seg = seg := by rw [he']
      obtain ⟨i1, i2⟩ := hins e' hes
      have hsub : (s.line.set p e').Sublist (A ++ e' :: B) := by
        rcases hp' with rfl | ⟨rfl, h0⟩
        · cases B with
          | nil => rw [e1, ← e2] at he; simp at he
          | cons b B =>
            rw [e1, ← e2, List.set_append_right _ _ (Nat.le_refl _), Nat.sub_self, List.set_cons_zero]
            exact (List.Sublist.refl A).append ((List.sublist_cons_self b B).cons_cons e')
        · rcases List.eq_nil_or_concat A with hA | ⟨A', a, hA⟩
          · rw [hA] at e2; simp at e2; omega
          · rw [List.concat_eq_append] at hA
            have hl : A'.length = pos - 1 := by rw [hA] at e2; simp at e2; omega
            rw [e1, hA, ← hl, List.append_assoc, List.set_append_right _ _ (Nat.le_refl _), Nat.sub_self, List.singleton_append, List.set_cons_zero,
              List.append_assoc]
            exact (List.Sublist.refl A').append (List.sublist_cons_self a (e' :: B))
      exact ⟨i1.sublist hsub, fun f hf => i2 f (hsub.subset hf)⟩
    exact ⟨hy, hnew.2, hnew.1, scanBoth_touching hP hnew.2 hnew.1 hq' hq⟩
  · rw [Option.map_eq_some_iff] at h
    obtain ⟨r, hr, rfl⟩ := h
    unfold insertScan at hr
    split_ifs at hr with hle
    dsimp only at hr
    rw [Option.map_eq_some_iff] at hr
    obtain ⟨q', hq', rfl⟩ := hr
    have hl : s.line.insertIdx pos { Entry.new seg with enter := true, exit := false } = A ++ { Entry.new seg with enter := true, exit := false } :: B := by
      obtain ⟨l1, l2, k1, k2, k3⟩ := split_insert s.line pos { Entry.new seg with enter := true, exit := false } hle
      rw [k3]
      have := List.append_inj (k1.symm.trans e1) (by omega)
      rw [this.1, this.2]
    obtain ⟨i1, i2⟩ := hins { Entry.new seg with enter := true, exit := false } rfl
    rw [← hl] at i1 i2
    exact ⟨rfl, i2, i1, scanBoth_touching hP i2 i1 hq' hq⟩

theorem handleAll_enter_good (hP : E.Planar) (hpp : E.PP) (l : List (K × Nat)) : ∀ {s s' : State K}, Good E y s →
    (∀ p ∈ l, p.2 ∈ E.segs ∧ p.1 = E.startY p.2 ∧ E.startY p.2 ≤ E.endY p.2) → handleAll (handleEnter E) y l s = some s' → Good E y s' := by
  induction l with
  | nil =>
    intro s s' hg _ he
    simp only [handleAll, Option.some.injEq] at he
    subst he
    exact hg
  | cons p l ih =>
    intro s s' hg hl he
    simp only [handleAll] at he
    split_ifs at he with h1
    split at he
    · simp at he
    rename_i s1 hs1
    obtain ⟨g1, g2, g3⟩ := hl p (by simp)
    exact ih (handleEnter_good hP hpp hg g1 (by rw [← g2]; exact h1) g3 hs1) (fun q hq => hl q (List.mem_cons_of_mem _ hq)) he

theorem handleExit_good (hP : E.Planar) {s s' : State K} {seg : Nat} (hg : Good E y s) (h : handleExit E s seg = some s') : Good E y s' := by
  obtain ⟨hy, hon, hs, hq⟩ := hg
  unfold handleExit at h
  split at h
  · simp at h
  rename_i pos hpos
  split at h
  · simp at h
  rename_i e he
  by_cases ho : e.oldSeg = some seg
  · rw [if_pos ho] at h
    simp only [Option.some.injEq] at h
    subst h
    exact ⟨hy, hon, hs, hq⟩
  rw [if_neg ho] at h
  dsimp only at h
  rw [Option.map_eq_some_iff] at h
  obtain ⟨q', hq', rfl⟩ := h
  rw [hy] at hq'
  obtain ⟨l1, l2, e1, e2, e3, -⟩ := split_at he
  have hmap : (s.line.set pos { e with exit := true }).map Entry.seg = s.line.map Entry.seg := by rw [e3, e1]; simp
  have hs' := hs.congr hmap
  have hon' : ∀ f ∈ s.line.set pos { e with exit := true }, E.On y f.seg := by
    intro f hf
    have : f.seg ∈ s.line.map Entry.seg := by rw [← hmap]; exact List.mem_map_of_mem hf
    obtain ⟨g, h1, h2⟩ := List.mem_map.1 this
    rw [← h2]; exact hon g h1
  exact ⟨hy, hon', hs', scanForRemoval_touching hP hon' hs' hq' hq⟩

theorem handleAll_exit_good (hP : E.Planar) (l : List (K × Nat)) : ∀ {s s' : State K}, Good E y s →
    handleAll (handleExit E) y l s = some s' → Good E y s' := by
  induction l with
  | nil =>
    intro s s' hg he
    simp only [handleAll, Option.some.injEq] at he
    subst he
    exact hg
  | cons p l ih =>
    intro s s' hg he
    simp only [handleAll] at he
    split_ifs at he with h1
    split at he
    · simp at he
    rename_i s1 hs1
    exact ih (handleExit_good hP hg hs1) he

/-- Nothing is swapped. -/
theorem handleIntersection_good (hP : E.Planar) {s s' : State K} {ev : IEvent K} (hg : Good E y s) (hold : ∀ f ∈ s.line, ∀ o, f.oldSeg = some o → E.endY o = y)
    (hev : E.Lt ev.right ev.left ∧ ev.y < E.endY ev.left ∧ ev.y < E.endY ev.right) (hye : ev.y = y)
    (h : handleIntersection E s ev.left ev.right = some s') : Good E y s' ∧ s'.line = s.line := by
  obtain ⟨hy, hon, hs, hq⟩ := hg
  have hpos : ∀ x n, position s.line x = some n → y < E.endY x → ∃ e, s.line[n]? = some e ∧ e.seg = x := by
    intro x n hn hx
    obtain ⟨e, h1, h2⟩ := position_some hn
    rcases h2 with h2 | h2
    · exact ⟨e, h1, h2⟩
    · rw [hold e (List.mem_of_getElem? h1) x h2] at hx
      exact absurd hx (lt_irrefl _)
  unfold handleIntersection at h
  split at h
  · rename_i l r hl hr
    obtain ⟨el, l1, l2⟩ := hpos _ _ hl (by rw [← hye]; exact hev.2.1)
    obtain ⟨er, r1, r2⟩ := hpos _ _ hr (by rw [← hye]; exact hev.2.2)
    by_cases hlr : l < r
    · exfalso
      obtain ⟨hl', hle⟩ := List.getElem?_eq_some_iff.1 l1
      obtain ⟨hr', hre⟩ := List.getElem?_eq_some_iff.1 r1
      have := (List.pairwise_iff_getElem.1 hs) l r hl' hr' hlr
      rw [hle, hre, l2, r2] at this
      exact this hev.1
    · rw [if_neg hlr, Option.map_eq_some_iff] at h
      obtain ⟨q2, hq2, rfl⟩ := h
      rw [Option.bind_eq_some_iff] at hq2
      obtain ⟨q1, hq1, hq2⟩ := hq2
      rw [hy] at hq1 hq2
      exact ⟨⟨hy, hon, hs, scanLeft_touching hP hon hs hq2 (scanRight_touching hP hon hs hq1 hq)⟩, rfl⟩
  · simp at h

theorem intLoop_good (hP : E.Planar) (fuel : Nat) : ∀ {s s' : State K}, Good E y s → (∀ f ∈ s.line, ∀ o, f.oldSeg = some o → E.endY o = y) →
    intLoop E fuel s = some s' → Good E y s' ∧ s'.line = s.line := by
  induction fuel with
  | zero => intro s s' _ _ h; simp [intLoop] at h
  | succ fuel ih =>
    intro s s' hg hold h
    simp only [intLoop] at h
    split at h
    · simp only [Option.some.injEq] at h
      subst h
      exact ⟨hg, rfl⟩
    rename_i ev rest hi
    split at h
    · rename_i hye
      split at h
      · simp at h
      rename_i s1 hs1
      have hq := hg.touching
      rw [hi] at hq
      obtain ⟨g1, g2⟩ := handleIntersection_good hP (s := { s with ints := rest }) ⟨hg.y_eq, hg.on, hg.sorted, fun e he => hq e (List.mem_cons_of_mem _ he)⟩ hold
        (hq ev (by simp)) (hye.trans hg.y_eq) hs1
      obtain ⟨g3, g4⟩ := ih g1 (by rw [g2]; exact hold) h
      exact ⟨g3, g4.trans g2⟩
    · simp only [Option.some.injEq] at h
      subst h
      exact ⟨hg, rfl⟩

/-- From one line to the next. -/
theorem nextLine_good (hs : E.Sched) (hpp : E.PP) (hP : E.Planar) {yl : WithBot K} {s s' : State K} {fuel : Nat} (hb : Between E yl s)
    (h : nextLine E fuel s = some (some s')) (hg : (newSegs s.line).Pairwise (fun a b => ¬ E.Lt b a) ∧ Touching E s.ints) :
    (s'.line.map Entry.seg).Pairwise (fun a b => ¬ E.Lt b a) ∧ Touching E s'.ints := by
  obtain ⟨hlt, ⟨w, v, p1, p2, p3, p4, p5, p6, hF⟩, hb', hny⟩ := nextLine_parts hs hpp hb h
  unfold beforeInts at p1
  rw [hny] at p1
  dsimp only at p1
  split at p1
  · simp at p1
  rename_i s1 hs1
  obtain ⟨a1, a2, a3, a4, a5, a6, a7, a8⟩ := advance_spec hb.done hs1
  split at p1
  · simp at p1
  rename_i s2 hs2
  obtain ⟨n1, n2, n3, n4⟩ := nextY_some hny
  set N := s'.y with hN
  have hnew : ∀ x ∈ newSegs s.line, E.On N x := by
    intro x hx
    obtain ⟨h1, h2, h3, h4⟩ := (hb.mem x).1 hx
    have hd := hs.down x h1
    refine ⟨⟨h1, lt_of_le_of_ne hd (by simpa [Env.isHorizontal] using h2)⟩, WithBot.coe_le_coe.1 (h3.trans hlt.le), ?_⟩
    obtain ⟨p, hp, rfl⟩ := List.mem_map.1 ((hs.exit_mem x).2 ⟨h1, h2⟩)
    have := hb.exit.head hs.exit_sorted n3 hp (by rw [hs.exit_y p hp]; exact h4)
    rwa [hs.exit_y p hp] at this
  have hseg1 : s1.line.map Entry.seg = newSegs s.line := by rw [a2]; exact segsOf_new _
  have g1 : Good E N { s1 with nextEnter := s1.nextEnter + (atHeight N E.entrances s1.nextEnter).length } := by
    refine ⟨a1, ?_, ?_, ?_⟩
    · intro f hf
      refine hnew _ ?_
      rw [← hseg1]; exact List.mem_map_of_mem hf
    · unfold Sorted
      rw [← List.pairwise_map (f := Entry.seg) (R := fun a b => ¬ E.Lt b a)]
      show (s1.line.map Entry.seg).Pairwise _
      rw [hseg1]; exact hg.1
    · show Touching E s1.ints
      rw [a5]; exact hg.2
  have hsubE : ∀ p ∈ atHeight N E.entrances s1.nextEnter, p ∈ E.entrances := fun p hp =>
    ((List.takeWhile_prefix _).sublist.trans (List.drop_sublist _ _)).subset hp
  have g2 := handleAll_enter_good hP hpp _ g1 (fun p hp => by
      have h1 := hsubE p hp
      exact ⟨List.mem_map_of_mem h1, hs.enter_y p h1, hs.down p.2 (List.mem_map_of_mem h1)⟩) hs2
  have g3 := handleAll_exit_good hP _ (s := { s2 with nextExit := s2.nextExit + (atHeight N E.exits s2.nextExit).length }) ⟨g2.1, g2.2, g2.3, g2.4⟩ p1
  have hold : ∀ f ∈ w.line, ∀ o, f.oldSeg = some o → E.endY o = N := by
    intro f hf o ho
    rcases hF.kinds f hf with ⟨a, b, c⟩ | ⟨a, b, c, d⟩ | ⟨o', a, b, c, d, e1, e2, e3, e4⟩ | ⟨a, b, c, d⟩
    · rw [c] at ho; simp at ho
    · rw [c] at ho; simp at ho
    · rw [c, Option.some.injEq] at ho
      rw [← ho]; exact e4
    · rw [c] at ho; simp at ho
  obtain ⟨g4, -⟩ := intLoop_good hP fuel g3 hold p3
  have hcore : s'.line.map Entry.seg = v.line.map Entry.seg := by
    have := congrArg (List.map Entry.seg) hF.chg.same.core_map
    simpa [Entry.core, Function.comp_def] using this
  refine ⟨?_, ?_⟩
  · rw [hcore]
    have := g4.sorted
    unfold Sorted at this
    rw [← List.pairwise_map (f := Entry.seg) (R := fun a b => ¬ E.Lt b a)] at this
    exact this
  · rw [← p4]; exact g4.touching

theorem Reached.good (hs : E.Sched) (hpp : E.PP) (hP : E.Planar) {fuel : Nat} {s : State K} (h : Reached E fuel s) :
    (s.line.map Entry.seg).Pairwise (fun a b => ¬ E.Lt b a) ∧ Touching E s.ints := by
  induction h with
  | first s h =>
    refine nextLine_good hs hpp hP (Between.init E) h ⟨?_, ?_⟩
    · show (newSegs []).Pairwise _
      exact List.Pairwise.nil
    · intro ev hev
      have : (State.new E).ints = [] := rfl
      rw [this] at hev; simp at hev
  | next s s' hr h ih =>
    exact nextLine_good hs hpp hP (hr.spec hs hpp).1 h ⟨ih.1.sublist (newSegs_sublist _), ih.2⟩

end

end Verif.Sweep
