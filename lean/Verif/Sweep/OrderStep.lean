import Verif.Sweep.Order

/-! The steps of the sweep keep the invariant of `Verif.Sweep.Order`. -/

namespace Verif.Sweep
open Verif.Curve Verif.Range Verif.Topo
set_option linter.unusedSectionVars false

variable {K P : Type} [LinearOrder K] [LinearOrder P] [AddCommGroup P] [IsOrderedAddMonoid P] {px : Nat → K → P}
variable {E : Env K} {m : P} {y : K} {Q Q' : List (IEvent K)} {pend pend' : Nat → Prop}

/-- The segments of the line. -/
def segsOf (line : List Entry) : List Nat := line.map Entry.seg

theorem segsOf_append (A B : List Entry) : segsOf (A ++ B) = segsOf A ++ segsOf B := by simp [segsOf]
theorem segsOf_cons (e : Entry) (B : List Entry) : segsOf (e :: B) = e.seg :: segsOf B := rfl

theorem get_split (A : List Entry) (e : Entry) (B : List Entry) : (A ++ e :: B)[A.length]? = some e := by simp

theorem scanRight_scanR (hS : E.Sound px m) {line A B : List Entry} {e : Entry} (hline : line = A ++ e :: B) (hon : ∀ f ∈ line, OnLine E y f.seg)
    (hlive : y < E.endY e.seg) (h : scanRight E y line A.length Q = some Q') : ScanR E px m y Q' e.seg (segsOf B) := by
  unfold scanRight at h
  rw [hline, get_split] at h
  dsimp only at h
  rw [if_neg hlive.ne'] at h
  have hdrop : (A ++ e :: B).drop (A.length + 1) = B := by
    have : A ++ e :: B = (A ++ [e]) ++ B := by simp
    rw [this, List.drop_left' (by simp)]
  rw [hdrop] at h
  intro t X b B' hB hy h1 h2 hv
  unfold segsOf at hB
  obtain ⟨Xe, R, e1, e2, e3⟩ := List.map_eq_append_iff.1 hB
  obtain ⟨be, Be, e4, e5, e6⟩ := List.map_eq_cons_iff.1 e3
  have honB : ∀ f ∈ B, OnLine E y f.seg := fun f hf => hon f (by rw [hline]; simp [hf])
  have hb : OnLine E y b := by
    rw [← e5]
    exact honB be (by rw [e1, e4]; simp)
  rcases scanRightLoop_explains hS (hon e (by rw [hline]; simp)) hy h1 h2 hb hv B Xe be Be (by rw [e1, e4]) e5 honB h with h3 | h3
  · exact absurd h1 (not_le.2 h3)
  · rw [← e2]; exact h3

theorem scanLeft_scanL (hS : E.Sound px m) {line A B : List Entry} {e : Entry} (hline : line = A ++ e :: B) (hon : ∀ f ∈ line, OnLine E y f.seg)
    (hlive : y < E.endY e.seg) (h : scanLeft E y line A.length Q = some Q') : ScanL E px m y Q' e.seg (segsOf A) := by
  unfold scanLeft at h
  rw [hline, get_split] at h
  dsimp only at h
  rw [if_neg hlive.ne', List.take_left] at h
  intro t A' a X hA hy h1 h2 hv
  unfold segsOf at hA
  obtain ⟨Ae, R, e1, e2, e3⟩ := List.map_eq_append_iff.1 hA
  obtain ⟨ae, Xe, e4, e5, e6⟩ := List.map_eq_cons_iff.1 e3
  have honA : ∀ f ∈ A.reverse, OnLine E y f.seg := fun f hf => hon f (by rw [hline]; simp [List.mem_reverse.1 hf])
  have ha : OnLine E y a := by
    rw [← e5]
    exact honA ae (by rw [e1, e4]; simp)
  have hrev : A.reverse = Xe.reverse ++ ae :: Ae.reverse := by rw [e1, e4]; simp
  rcases scanLeftLoop_explains hS (hon e (by rw [hline]; simp)) hy h2 h1 ha hv A.reverse Xe.reverse ae Ae.reverse hrev e5 honA h with h3 | h3
  · exact absurd h2 (not_le.2 h3)
  · rw [List.map_reverse, e6] at h3
    rcases h3 with ⟨o, g1, g2⟩ | ⟨o, g1, g2⟩ | ⟨X1, k, X2, g1, g2⟩
    · exact .inl ⟨o, by simpa using g1, g2⟩
    · exact .inr (.inl ⟨o, by simpa using g1, g2⟩)
    · refine .inr (.inr ⟨X2.reverse, k, X1.reverse, ?_, g2⟩)
      have := congrArg List.reverse g1
      simpa using this

theorem scanBoth_crossings (hS : E.Sound px m) {line A B : List Entry} {e : Entry} {i : Nat} (hline : line = A ++ e :: B) (hi : i = A.length)
    (hon : ∀ f ∈ line, OnLine E y f.seg) (hlive : y < E.endY e.seg) (h : scanBoth E y line i Q = some Q')
    (hA : Crossings E px m y Q pend (segsOf A)) (hB : Crossings E px m y Q pend (segsOf B)) : Crossings E px m y Q' pend (segsOf line) := by
  subst hi
  have hk := (scanBoth_grows h).keep
  unfold scanBoth at h
  rw [Option.bind_eq_some_iff] at h
  obtain ⟨q1, h1, h2⟩ := h
  rw [hline, segsOf_append, segsOf_cons]
  exact pivot hS.nonneg hlive ((scanRight_scanR hS hline hon hlive h1).mono (scanLeft_grows h2).keep) (scanLeft_scanL hS hline hon hlive h2)
    (hA.mono hk fun _ _ h => h) (hB.mono hk fun _ _ h => h)

/-! ## Entering -/

theorem insertScan_crossings (hS : E.Sound px m) {line : List Entry} {e : Entry} {pos : Nat} {r : List Entry × List (IEvent K)}
    (hon : ∀ f ∈ line, OnLine E y f.seg) (he : OnLine E y e.seg) (h : insertScan E y line pos e Q = some r)
    (hc : Crossings E px m y Q pend (segsOf line)) : Crossings E px m y r.2 pend (segsOf r.1) ∧ ∀ f ∈ r.1, OnLine E y f.seg := by
  obtain ⟨g1, g2, g3⟩ := insertScan_spec h
  obtain ⟨l1, l2, e1, e2, e3⟩ := split_insert line pos e g1
  have hon' : ∀ f ∈ r.1, OnLine E y f.seg := by
    rw [g2, e3]
    intro f hf
    rw [List.mem_append, List.mem_cons] at hf
    rw [e1] at hon
    rcases hf with hf | rfl | hf
    · exact hon f (by simp [hf])
    · exact he
    · exact hon f (by simp [hf])
  refine ⟨?_, hon'⟩
  rcases he.2.2.eq_or_lt with hd | hl
  · rw [g2, e3, segsOf_append, segsOf_cons]
    rw [e1, segsOf_append] at hc
    exact (hc.mono g3.keep fun _ _ h => h).insert_dead hd.symm
  · unfold insertScan at h
    rw [if_pos g1] at h
    dsimp only at h
    rw [Option.map_eq_some_iff] at h
    obtain ⟨q', h1, rfl⟩ := h
    rw [e1, segsOf_append] at hc
    exact scanBoth_crossings hS e3 e2.symm hon' hl h1 (hc.infix ⟨[], segsOf l2, by simp⟩) (hc.infix ⟨segsOf l1, [], by simp⟩)

theorem handleEnter_crossings (hS : E.Sound px m) {s s' : State K} {seg : Nat} (hon : ∀ f ∈ s.line, OnLine E s.y f.seg) (hseg : seg ∈ E.segs)
    (hst : E.startY seg = s.y) (hdown : E.startY seg ≤ E.endY seg) (h : handleEnter E s seg = some s')
    (hc : Crossings E px m s.y s.ints pend (segsOf s.line)) :
    Crossings E px m s.y s'.ints pend (segsOf s'.line) ∧ (∀ f ∈ s'.line, OnLine E s.y f.seg) ∧ s'.y = s.y := by
  unfold handleEnter at h
  by_cases hh : E.isHorizontal seg = true
  · rw [if_pos hh] at h
    simp only [Option.some.injEq] at h
    subst h
    exact ⟨hc, hon, rfl⟩
  rw [if_neg hh] at h
  have hlive : s.y < E.endY seg := by
    rw [← hst]
    refine lt_of_le_of_ne hdown ?_
    simpa [Env.isHorizontal] using hh
  have hon0 : OnLine E s.y seg := ⟨⟨hseg, by rw [hst]; exact hlive⟩, hst.le, by rw [← hst]; exact hdown⟩
  split at h
  · simp at h
  rename_i pos hpos
  split at h
  · simp at h
  · rename_i p hp
    unfold handleContinuation at h
    split at h
    · simp at h
    rename_i e he
    dsimp only at h
    rw [Option.map_eq_some_iff] at h
    obtain ⟨q', hq', rfl⟩ := h
    obtain ⟨l1, l2, e1, e2, e3, -⟩ := split_at he
    have hon' : ∀ f ∈ s.line.set p { e with oldSeg := some e.seg, seg := seg, enter := true, exit := true }, OnLine E s.y f.seg := by
      rw [e3]
      intro f hf
      rw [List.mem_append, List.mem_cons] at hf
      rw [e1] at hon
      rcases hf with hf | rfl | hf
      · exact hon f (by simp [hf])
      · exact hon0
      · exact hon f (by simp [hf])
    rw [e1, segsOf_append, segsOf_cons] at hc
    refine ⟨?_, hon', rfl⟩
    exact scanBoth_crossings hS (e3 _) e2.symm hon' hlive hq' (hc.infix (infix_left _ _ _)) (hc.infix (infix_right _ _ _))
  · rw [Option.map_eq_some_iff] at h
    obtain ⟨r, hr, rfl⟩ := h
    obtain ⟨g1, g2⟩ := insertScan_crossings hS hon (by exact hon0) hr hc
    exact ⟨g1, g2, rfl⟩

theorem handleAll_enter_crossings (hS : E.Sound px m) (l : List (K × Nat)) : ∀ {s s' : State K}, s.y = y →
    (∀ p ∈ l, p.2 ∈ E.segs ∧ p.1 = E.startY p.2 ∧ E.startY p.2 ≤ E.endY p.2) → handleAll (handleEnter E) y l s = some s' →
    (∀ f ∈ s.line, OnLine E y f.seg) → Crossings E px m y s.ints pend (segsOf s.line) →
    Crossings E px m y s'.ints pend (segsOf s'.line) ∧ (∀ f ∈ s'.line, OnLine E y f.seg) ∧ s'.y = y := by
  induction l with
  | nil =>
    intro s s' hy _ he hon hc
    simp only [handleAll, Option.some.injEq] at he
    subst he
    exact ⟨hc, hon, hy⟩
  | cons p l ih =>
    intro s s' hy hl he hon hc
    simp only [handleAll] at he
    split_ifs at he with h1
    split at he
    · simp at he
    rename_i s1 hs1
    obtain ⟨g1, g2, g3⟩ := hl p (by simp)
    have := handleEnter_crossings (pend := pend) hS (by rw [hy]; exact hon) g1 (by rw [hy, ← g2]; exact h1) g3 hs1 (by rw [hy]; exact hc)
    rw [hy] at this
    exact ih this.2.2 (fun q hq => hl q (List.mem_cons_of_mem _ hq)) he this.2.1 this.1

/-! ## Leaving -/

/-- The segment `k` ends at this height, the segment before it does not, and `k` has not been handled yet. -/
def Pending1 (E : Env K) (y : K) (L D : List Nat) (k : Nat) : Prop :=
  E.endY k = y ∧ k ∉ D ∧ ∃ A x B, L = A ++ x :: k :: B ∧ y < E.endY x

theorem exists_first_dead (X : List Nat) : ∀ a, y < E.endY a → (∃ k ∈ X, E.endY k = y) → (∀ k ∈ X, y ≤ E.endY k) →
    ∃ P x k R, a :: X = P ++ x :: k :: R ∧ y < E.endY x ∧ E.endY k = y := by
  induction X with
  | nil => rintro a _ ⟨k, h, _⟩; simp at h
  | cons b X ih =>
    intro a ha hk hX
    rcases (hX b (by simp)).eq_or_lt with hb | hb
    · exact ⟨[], a, b, X, rfl, ha, hb.symm⟩
    · have hk' : ∃ k ∈ X, E.endY k = y := by
        obtain ⟨k, h1, h2⟩ := hk
        rcases List.mem_cons.1 h1 with rfl | h1
        · rw [h2] at hb; exact absurd hb (lt_irrefl _)
        · exact ⟨k, h1, h2⟩
      obtain ⟨P, x, k, R, h1, h2⟩ := ih b hb hk' fun k hk => hX k (List.mem_cons_of_mem _ hk)
      exact ⟨a :: P, x, k, R, by rw [h1]; rfl, h2⟩

theorem Crossings.pending1 {L : List Nat} (hL : ∀ k ∈ L, y ≤ E.endY k) (h : Crossings E px m y Q (fun k => E.endY k = y) L) :
    Crossings E px m y Q (Pending1 E y L []) L := by
  intro X hX a M b e t hy h1 h2 hv
  rcases h X hX a M b e t hy h1 h2 hv with ⟨k, h3, h4⟩ | h3
  · left
    have ha : y < E.endY a := lt_of_lt_of_le hy h1
    have hk : ∃ k ∈ M ++ [b], E.endY k = y := by
      rw [e] at h3
      rcases List.mem_cons.1 h3 with rfl | h3
      · rw [h4] at ha; exact absurd ha (lt_irrefl _)
      · exact ⟨k, h3, h4⟩
    obtain ⟨P, x, k, R, g1, g2, g3⟩ := exists_first_dead (M ++ [b]) a ha hk fun k hk => hL k (hX.subset (by rw [e]; exact List.mem_cons_of_mem _ hk))
    refine ⟨k, by rw [e, g1]; simp, g3, by simp, ?_⟩
    obtain ⟨S, T, hST⟩ := hX
    exact ⟨S ++ P, x, R ++ T, by rw [← hST, e, g1]; simp, g2⟩
  · exact .inr h3

theorem split_unique {A B A' B' : List Nat} {k : Nat} (hn : (A ++ k :: B).Nodup) (h : A ++ k :: B = A' ++ k :: B') : A = A' ∧ B = B' := by
  induction A generalizing A' with
  | nil =>
    cases A' with
    | nil => simpa using h
    | cons x A' =>
      rw [List.nil_append, List.cons_append, List.cons.injEq] at h
      rw [List.nil_append, List.nodup_cons] at hn
      exact absurd (by rw [h.2]; simp) hn.1
  | cons a A ih =>
    cases A' with
    | nil =>
      rw [List.nil_append, List.cons_append, List.cons.injEq] at h
      rw [List.cons_append, List.nodup_cons] at hn
      exact absurd (by rw [h.1]; simp) hn.1
    | cons x A' =>
      rw [List.cons_append, List.cons_append, List.cons.injEq] at h
      rw [List.cons_append, List.nodup_cons] at hn
      obtain ⟨h1, h2⟩ := ih hn.2 h.2
      exact ⟨by rw [h.1, h1], h2⟩

theorem segsOf_set (line : List Entry) (p : Nat) (e f : Entry) (he : line[p]? = some e) (hf : f.seg = e.seg) : segsOf (line.set p f) = segsOf line := by
  obtain ⟨l1, l2, e1, e2, e3, -⟩ := split_at he
  rw [e3, e1, segsOf_append, segsOf_append, segsOf_cons, segsOf_cons, hf]

theorem handleExit_crossings (hS : E.Sound px m) {s s' : State K} {seg : Nat} {D : List Nat} (hon : ∀ f ∈ s.line, OnLine E s.y f.seg)
    (hnd : (lineIds s.line).Nodup) (h : handleExit E s seg = some s')
    (hc : Crossings E px m s.y s.ints (Pending1 E s.y (segsOf s.line) D) (segsOf s.line)) :
    Crossings E px m s.y s'.ints (Pending1 E s.y (segsOf s'.line) (D ++ [seg])) (segsOf s'.line) ∧ segsOf s'.line = segsOf s.line ∧
      lineIds s'.line = lineIds s.line ∧ s'.y = s.y := by
  have hn : (segsOf s.line).Nodup := (segs_sublist s.line).nodup hnd
  unfold handleExit at h
  split at h
  · simp at h
  rename_i pos hpos
  split at h
  · simp at h
  rename_i e he
  obtain ⟨e', h1, h2⟩ := position_some hpos
  rw [he, Option.some.injEq] at h1
  subst h1
  have hmem : e ∈ s.line := List.mem_of_getElem? he
  by_cases ho : e.oldSeg = some seg
  · rw [if_pos ho] at h
    simp only [Option.some.injEq] at h
    subst h
    refine ⟨hc.mono (fun _ h => h) ?_, rfl, rfl, rfl⟩
    rintro k hk ⟨h3, h4, h5⟩
    refine ⟨h3, ?_, h5⟩
    rw [List.mem_append, List.mem_singleton]
    rintro (h6 | rfl)
    · exact h4 h6
    · obtain ⟨f, hf, hfk⟩ := List.mem_map.1 hk
      have : e = f := ids_unique hnd hmem hf (x := k) (by simp [Entry.ids, ho]) (by simp [Entry.ids, hfk])
      subst this
      have := ids_nodup hnd hmem
      simp [Entry.ids, ho, hfk] at this
  rw [if_neg ho] at h
  dsimp only at h
  rw [Option.map_eq_some_iff] at h
  obtain ⟨q', hq', rfl⟩ := h
  have hseg : e.seg = seg := h2.resolve_right ho
  have hset : segsOf (s.line.set pos { e with exit := true }) = segsOf s.line := segsOf_set _ _ _ _ he rfl
  dsimp only
  have hids : lineIds (s.line.set pos { e with exit := true }) = lineIds s.line := by
    obtain ⟨l1, l2, e1, e2, e3, -⟩ := split_at he
    rw [e3, e1, lineIds_append, lineIds_append, lineIds_cons, lineIds_cons]; rfl
  refine ⟨?_, hset, hids, rfl⟩
  rw [hset]
  obtain ⟨l1, l2, e1, e2, e3, -⟩ := split_at he
  have hL : segsOf s.line = segsOf l1 ++ seg :: segsOf l2 := by rw [e1, segsOf_append, segsOf_cons, hseg]
  have hkeep := (scanForRemoval_grows hq').keep
  -- unless the segment before goes on, nothing waits for this one
  have easy : (∀ A x, segsOf l1 = A ++ [x] → ¬ s.y < E.endY x) →
      Crossings E px m s.y q' (Pending1 E s.y (segsOf s.line) (D ++ [seg])) (segsOf s.line) := by
    intro hdead
    refine hc.mono hkeep ?_
    rintro k hk ⟨h3, h4, A, x, B, h5, h6⟩
    refine ⟨h3, ?_, A, x, B, h5, h6⟩
    rw [List.mem_append, List.mem_singleton]
    rintro (h7 | h7)
    · exact h4 h7
    · subst h7
      have h8 : segsOf l1 ++ k :: segsOf l2 = (A ++ [x]) ++ k :: B := by rw [← hL, h5]; simp
      rw [hL] at hn
      exact hdead A x (split_unique hn h8).1 h6
  rcases List.eq_nil_or_concat l1 with hl1 | ⟨A, x, hl1⟩
  · refine easy fun A x h3 => ?_
    rw [hl1] at h3
    have := congrArg List.length h3
    simp [segsOf] at this
  rw [List.concat_eq_append] at hl1
  by_cases hx : s.y < E.endY x.seg
  · unfold scanForRemoval at hq'
    have hpos' : pos = A.length + 1 := by rw [← e2, hl1]; simp
    rw [if_pos (by omega)] at hq'
    have hline : s.line.set pos { e with exit := true } = A ++ x :: ({ e with exit := true } :: l2) := by
      rw [e3, hl1]; simp
    have hon' : ∀ f ∈ s.line.set pos { e with exit := true }, OnLine E s.y f.seg := by
      intro f hf
      have : f.seg ∈ segsOf (s.line.set pos { e with exit := true }) := List.mem_map_of_mem hf
      rw [hset] at this
      obtain ⟨g, hg, hge⟩ := List.mem_map.1 this
      rw [← hge]
      exact hon g hg
    have hL' : segsOf s.line = segsOf A ++ x.seg :: (seg :: segsOf l2) := by rw [hL, hl1, segsOf_append, segsOf_cons]; simp [segsOf]
    have hA : Crossings E px m s.y s.ints (Pending1 E s.y (segsOf s.line) (D ++ [seg])) (segsOf A) := by
      refine (hc.infix (by rw [hL']; exact infix_left _ _ _)).mono (fun _ h => h) ?_
      rintro k hk ⟨h3, h4, h5⟩
      refine ⟨h3, ?_, h5⟩
      rw [List.mem_append, List.mem_singleton]
      rintro (h6 | rfl)
      · exact h4 h6
      · rw [hL', List.nodup_append] at hn
        exact hn.2.2 k hk k (by simp) rfl
    have hB : Crossings E px m s.y s.ints (Pending1 E s.y (segsOf s.line) (D ++ [seg])) (seg :: segsOf l2) := by
      have hB0 : Crossings E px m s.y s.ints (Pending1 E s.y (segsOf s.line) (D ++ [seg])) (segsOf l2) := by
        refine (hc.infix (by rw [hL]; exact infix_right _ _ _)).mono (fun _ h => h) ?_
        rintro k hk ⟨h3, h4, h5⟩
        refine ⟨h3, ?_, h5⟩
        rw [List.mem_append, List.mem_singleton]
        rintro (h6 | rfl)
        · exact h4 h6
        · rw [hL, List.nodup_append, List.nodup_cons] at hn
          exact hn.2.1.1 hk
      by_cases hd : E.endY seg = s.y
      · exact Crossings.insert_dead (A := []) hd hB0
      · -- it cannot be pending
        refine (hc.infix (by rw [hL']; exact infix_right _ _ _)).mono (fun _ h => h) ?_
        rintro k hk ⟨h3, h4, h5⟩
        refine ⟨h3, ?_, h5⟩
        rw [List.mem_append, List.mem_singleton]
        rintro (h6 | rfl)
        · exact h4 h6
        · exact hd h3
    have := scanBoth_crossings hS hline (by omega) hon' hx hq' hA (by rw [segsOf_cons]; rw [← hseg] at hB; rw [← hseg]; exact hB)
    rw [hset] at this
    exact this
  · refine easy fun A' x' h3 => ?_
    rw [hl1, segsOf_append] at h3
    have : x' = x.seg := (last_eq h3).symm
    rw [this]; exact hx

theorem handleAll_exit_crossings (hS : E.Sound px m) (l : List (K × Nat)) : ∀ {D : List Nat} {s s' : State K}, s.y = y →
    handleAll (handleExit E) y l s = some s' → (∀ f ∈ s.line, OnLine E y f.seg) → (lineIds s.line).Nodup →
    Crossings E px m y s.ints (Pending1 E y (segsOf s.line) D) (segsOf s.line) →
    Crossings E px m y s'.ints (Pending1 E y (segsOf s'.line) (D ++ l.map Prod.snd)) (segsOf s'.line) ∧ segsOf s'.line = segsOf s.line := by
  induction l with
  | nil =>
    intro D s s' hy he hon hnd hc
    simp only [handleAll, Option.some.injEq] at he
    subst he
    exact ⟨by simpa using hc, rfl⟩
  | cons p l ih =>
    intro D s s' hy he hon hnd hc
    simp only [handleAll] at he
    split_ifs at he with h1
    split at he
    · simp at he
    rename_i s1 hs1
    obtain ⟨g1, g2, g3, g4⟩ := handleExit_crossings (D := D) hS (by rw [hy]; exact hon) hnd hs1 (by rw [hy]; exact hc)
    rw [hy] at g1 g4
    have hon' : ∀ f ∈ s1.line, OnLine E y f.seg := by
      intro f hf
      have : f.seg ∈ segsOf s1.line := List.mem_map_of_mem hf
      rw [g2] at this
      obtain ⟨g, hg, hge⟩ := List.mem_map.1 this
      rw [← hge]
      exact hon g hg
    obtain ⟨k1, k2⟩ := ih g4 he hon' (by rw [g3]; exact hnd) g1
    exact ⟨by simpa using k1, k2.trans g2⟩

end Verif.Sweep
