import Verif.Sweep.OrderStep

/-! Handling an intersection keeps the invariant of `Verif.Sweep.Order`. -/

namespace Verif.Sweep
open Verif.Curve Verif.Range Verif.Topo
set_option linter.unusedSectionVars false

variable {K P : Type} [LinearOrder K] [LinearOrder P] [AddCommGroup P] [IsOrderedAddMonoid P] {px : Nat → K → P}
variable {E : Env K} {m : P} {y : K} {Q Q' : List (IEvent K)} {pend pend' : Nat → Prop}

/-- What is asked of an intersection event of the segments `left` and `right`, if it makes them change places: no segment that must move is
also definitely to the left of `right` (so that the event is not put off), and no segment that moves and goes on has a segment that ends here
as its left neighbour. -/
def SwapSafe (E : Env K) (s : State K) (left right : Nat) : Prop :=
  ∀ l r, position s.line left = some l → position s.line right = some r → l < r →
    ∀ (j : Nat) (e : Entry), l ≤ j → j < r → s.line[j]? = some e → (j = l ∨ (e.willReallyExit = false ∧ DefLeft E s.y left e.seg)) →
      (l < j → ¬ DefLeft E s.y e.seg right) ∧
      ∀ x : Entry, 0 < j → s.line[j - 1]? = some x → s.y < E.endY e.seg → s.y < E.endY x.seg

/-! ## Removing and inserting -/

theorem remove_step (hS : E.Sound px m) {p : List Nat → Prop} {line : List Entry} {j : Nat} {e : Entry} (he : line[j]? = some e)
    (hon : ∀ f ∈ line, OnLine E y f.seg) (h : scanForRemoval E y (line.eraseIdx j) j Q = some Q')
    (hlive : ∀ x : Entry, 0 < j → line[j - 1]? = some x → y < E.endY e.seg → y < E.endY x.seg)
    (hc : CIp E px m y Q (fun _ => False) p (segsOf line)) (hA : ∀ X, X <:+: segsOf (line.take j) → p X)
    (hB : ∀ X, X <:+: segsOf (line.drop (j + 1)) → p X) (hd : E.endY e.seg = y → ∀ X, p X) :
    Crossings E px m y Q' (fun _ => False) (segsOf (line.eraseIdx j)) := by
  obtain ⟨l1, l2, e1, e2, e3, e4⟩ := split_at he
  have hkeep := (scanForRemoval_grows h).keep
  have ht : line.take j = l1 := by rw [e1, ← e2, List.take_left]
  have hdr : line.drop (j + 1) = l2 := by
    have : line = (l1 ++ [e]) ++ l2 := by rw [e1]; simp
    rw [this, List.drop_left' (by simp [e2])]
  rw [ht] at hA
  rw [hdr] at hB
  rw [e4] at h ⊢
  have hL : segsOf line = segsOf l1 ++ e.seg :: segsOf l2 := by rw [e1, segsOf_append, segsOf_cons]
  have hc1 : Crossings E px m y Q (fun _ => False) (segsOf l1) := (hc.infix (by rw [hL]; exact infix_left _ _ _)).full hA
  have hc2 : Crossings E px m y Q (fun _ => False) (segsOf l2) := (hc.infix (by rw [hL]; exact infix_right _ _ _)).full hB
  rcases (hon e (List.mem_of_getElem? he)).2.2.eq_or_lt with hdead | hl
  · have hfull := hc.full fun X _ => hd hdead.symm X
    rw [hL] at hfull
    rw [segsOf_append]
    exact (hfull.mono hkeep fun _ _ h => h).remove_dead hdead.symm (fun h => h)
  · rcases List.eq_nil_or_concat l1 with hl1 | ⟨A, x, hl1⟩
    · subst hl1
      exact hc2.mono hkeep fun _ _ h => h
    · rw [List.concat_eq_append] at hl1
      have hj : j = A.length + 1 := by rw [← e2, hl1]; simp
      have hx : y < E.endY x.seg := by
        refine hlive x (by omega) ?_ hl
        rw [e1, hl1, hj]; simp
      unfold scanForRemoval at h
      rw [if_pos (by omega)] at h
      rw [hl1] at hc1
      refine scanBoth_crossings hS (A := A) (B := l2) (e := x) (by rw [hl1]; simp) (by omega) ?_ hx h (hc1.infix ?_) hc2
      · intro f hf
        refine hon f ?_
        rw [e1]
        rw [List.mem_append] at hf ⊢
        exact hf.imp id (List.mem_cons_of_mem _)
      · exact ⟨[], segsOf [x], by rw [segsOf_append]; simp⟩

theorem removeScan_crossings (hS : E.Sound px m) (js : List Nat) (hj : js.Pairwise (· > ·)) :
    ∀ {line : List Entry} {Q : List (IEvent K)} {r : List Entry × List Entry × List (IEvent K)}, removeScan E y js line Q = some r →
      (∀ f ∈ line, OnLine E y f.seg) →
      (∀ j ∈ js, ∀ e x : Entry, line[j]? = some e → 0 < j → line[j - 1]? = some x → y < E.endY e.seg → y < E.endY x.seg) →
      Crossings E px m y Q (fun _ => False) (segsOf line) → Crossings E px m y r.2.2 (fun _ => False) (segsOf r.2.1) := by
  induction js with
  | nil =>
    intro line Q r h hon hl hc
    simp only [removeScan, Option.some.injEq] at h
    subst h
    exact hc
  | cons j js ih =>
    intro line Q r h hon hl hc
    rw [List.pairwise_cons] at hj
    simp only [removeScan] at h
    split at h
    · simp at h
    rename_i e he
    split at h
    · simp at h
    rename_i q1 hq1
    split at h
    · simp at h
    rename_i rem line' q' hr
    simp only [Option.some.injEq] at h
    subst h
    have hc1 := remove_step hS (p := fun _ => True) he hon hq1 (fun x h1 h2 h3 => hl j (by simp) e x he h1 h2 h3) (fun X hX _ => hc X hX)
      (fun _ _ => trivial) (fun _ _ => trivial) (fun _ _ => trivial)
    refine ih (r := (rem, line', q')) hj.2 hr (fun f hf => hon f (List.mem_of_mem_eraseIdx hf)) ?_ hc1
    intro i hi f x h1 h2 h3
    have hlt := hj.1 i hi
    rw [List.getElem?_eraseIdx, if_pos (by omega)] at h1 h3
    exact hl i (List.mem_cons_of_mem _ hi) f x h1 h2 h3

theorem insertAll_crossings (hS : E.Sound px m) {pos : Nat} (es : List Entry) :
    ∀ {line : List Entry} {Q : List (IEvent K)} {r : List Entry × List (IEvent K)}, insertAll E y pos es line Q = some r →
      (∀ f ∈ line, OnLine E y f.seg) → (∀ f ∈ es, OnLine E y f.seg) → Crossings E px m y Q pend (segsOf line) →
      Crossings E px m y r.2 pend (segsOf r.1) := by
  induction es with
  | nil =>
    intro line Q r h _ _ hc
    simp only [insertAll, Option.some.injEq] at h
    subst h
    exact hc
  | cons e es ih =>
    intro line Q r h hon hes hc
    simp only [insertAll] at h
    split at h
    · simp at h
    rename_i line' q' h1
    obtain ⟨g1, g2⟩ := insertScan_crossings hS hon (hes e (by simp)) h1 hc
    exact ih h g2 (fun f hf => hes f (List.mem_cons_of_mem _ hf)) g1

/-! ## Pairs -/

theorem pair_right {A B : List Nat} {p q : Nat} (hA : p ∉ A) (hB : p ∉ B) (h : [p, q].Sublist (A ++ p :: B)) : q ∈ B := by
  induction A with
  | nil =>
    rw [List.nil_append] at h
    cases h with
    | cons _ h => exact absurd (h.subset (by simp)) hB
    | cons_cons _ h => exact h.subset (by simp)
  | cons a A ih =>
    rw [List.cons_append] at h
    cases h with
    | cons _ h => exact ih (fun h' => hA (List.mem_cons_of_mem _ h')) h
    | cons_cons _ h => exact absurd (List.mem_cons_self ..) hA

theorem pair_left {A B : List Nat} {p q : Nat} (hA : q ∉ A) (hB : q ∉ B) (h : [p, q].Sublist (A ++ q :: B)) : p ∈ A := by
  have := h.reverse
  have h1 : [q, p].Sublist (B.reverse ++ q :: A.reverse) := by simpa using this
  have := pair_right (by simpa using hB) (by simpa using hA) h1
  simpa using this

theorem not_mem_split {A B : List Nat} {x : Nat} (h : (A ++ x :: B).Nodup) : x ∉ A ∧ x ∉ B := by
  rw [List.nodup_append, List.nodup_cons] at h
  exact ⟨fun hx => h.2.2 x hx x (by simp) rfl, h.2.1.1⟩

theorem infix_split {X A B : List Nat} {x : Nat} (hn : (A ++ x :: B).Nodup) (hX : X <:+: A ++ x :: B) (hx : x ∈ X) :
    ∃ X1 X2 A' B', X = X1 ++ x :: X2 ∧ A = A' ++ X1 ∧ B = X2 ++ B' := by
  obtain ⟨h1, h2⟩ := not_mem_split hn
  rcases infix_cases hX with h | h | h
  · exact absurd (h.subset hx) h1
  · exact absurd (h.subset hx) h2
  · exact h

/-! ## One intersection -/

theorem mem_split {x : Nat} {X : List Nat} (h : x ∈ X) : ∃ Y Z, X = Y ++ x :: Z := List.append_of_mem h

/-- The event has been taken from the queue, and the segments are already in the order that it wants. -/
theorem touch_crossings (hS : E.Sound px m) {line : List Entry} {ev : IEvent K} {Q1 Q2 : List (IEvent K)} {l r : Nat} {el er : Entry}
    (hon : ∀ f ∈ line, OnLine E y f.seg) (hnd : (segsOf line).Nodup)
    (hl : line[l]? = some el) (hr : line[r]? = some er) (hlr : r ≤ l) (hel : y < E.endY ev.left → el.seg = ev.left)
    (her : y < E.endY ev.right → er.seg = ev.right)
    (h1 : scanRight E y line r Q = some Q1) (h2 : scanLeft E y line l Q1 = some Q2)
    (hc : Crossings E px m y (ev :: Q) (fun _ => False) (segsOf line)) : Crossings E px m y Q2 (fun _ => False) (segsOf line) := by
  have hk1 := (scanRight_grows h1).keep
  have hk2 := (scanLeft_grows h2).keep
  have hk : ∀ x ∈ Q, x ∈ Q2 := fun x hx => hk2 x (hk1 x hx)
  -- what is still known without the event
  have other : ∀ X, X <:+: segsOf line → (ev.left ∉ X ∨ ev.right ∉ X) → Ok E px m y Q2 (fun _ => False) X := by
    intro X hX hno a M b e t hy g1 g2 hv
    rcases hc X hX a M b e t hy g1 g2 hv with h | h | ⟨ev', h3, h4⟩
    · exact .inl h
    · exact .inr (.inl h)
    · rcases List.mem_cons.1 h3 with rfl | h3
      · exfalso
        have : ev'.left ∈ X ∧ ev'.right ∈ X := by
          rcases h4.2.2.2 with h5 | ⟨h5, _⟩
          · exact ⟨h5.subset (by simp), h5.subset (by simp)⟩
          · exact ⟨h5.subset (by simp), h5.subset (by simp)⟩
        rcases hno with h | h
        · exact h this.1
        · exact h this.2
      · exact .inr (.inr ⟨ev', hk _ h3, h4⟩)
  intro X hX a M b e t hy g1 g2 hv
  rcases hc X hX a M b e t hy g1 g2 hv with h | h | ⟨ev', h3, h4⟩
  · exact .inl h
  · exact .inr (.inl h)
  rcases List.mem_cons.1 h3 with rfl | h3
  · obtain ⟨h5, h6, h7, h8⟩ := h4
    have sl := hel h6
    have sr := her h7
    obtain ⟨Al, Bl, a1, a2, -, -⟩ := split_at hl
    obtain ⟨Ar, Br, b1, b2, -, -⟩ := split_at hr
    have Ll : segsOf line = segsOf Al ++ ev'.left :: segsOf Bl := by rw [a1, segsOf_append, segsOf_cons, sl]
    have Lr : segsOf line = segsOf Ar ++ ev'.right :: segsOf Br := by rw [b1, segsOf_append, segsOf_cons, sr]
    have nl := hnd
    rw [Ll] at nl
    have nr := hnd
    rw [Lr] at nr
    rcases h8 with h8 | ⟨h8, h9⟩
    · -- impossible: they are in the other order
      exfalso
      have h9 := h8.trans hX.sublist
      rw [Ll] at h9
      have h10 := pair_right (not_mem_split nl).1 (not_mem_split nl).2 h9
      obtain ⟨Y, Z, hY⟩ := mem_split h10
      have h11 : segsOf Ar ++ ev'.right :: segsOf Br = (segsOf Al ++ ev'.left :: Y) ++ ev'.right :: Z := by
        rw [← Lr, Ll, hY]; simp
      have h12 := congrArg List.length (split_unique nr h11).1
      simp only [List.length_append, List.length_cons, segsOf, List.length_map] at h12
      omega
    rcases h9 with ⟨b', c1, c2, c3, c4⟩ | ⟨a', c1, c2, c3, c4⟩
    · have hX' := hX
      rw [Lr] at hX'
      obtain ⟨X1, X2, A', B', d1, d2, d3⟩ := infix_split nr hX' (c1.subset (by simp))
      have hXn : X.Nodup := hX.sublist.nodup hnd
      rw [d1] at c1 hXn
      have hb' := pair_right (not_mem_split hXn).1 (not_mem_split hXn).2 c1
      obtain ⟨Y, Z, hY⟩ := mem_split hb'
      have hR : ScanR E px m y Q2 ev'.right (segsOf Br) := by
        have := scanRight_scanR hS b1 hon (by rw [sr]; exact h7) (by rw [b2]; exact h1)
        rw [sr] at this
        exact this.mono hk2
      have hw : Wit E px m y t Q2 (fun _ => False) (ev'.right :: (Y ++ [b'])) := by
        refine wit_right hR (B' := Z ++ B') (by rw [d3, hY]; simp) hy c2 c3 c4 ?_
        intro Y1 k Y2 hY1 hkt hvk
        have hin : (k :: (Y2 ++ [b'])) <:+: segsOf Br := ⟨Y1, Z ++ B', by rw [d3, hY, hY1]; simp⟩
        refine other _ (hin.trans (by rw [Lr]; exact infix_right _ _ _)) (.inr ?_) k Y2 b' rfl t hy hkt c3 hvk
        exact fun hmem => (not_mem_split nr).2 (hin.subset hmem)
      refine hw.mono ?_ (fun _ h => h) fun _ _ h => h
      rw [d1, hY]
      refine List.Sublist.trans ?_ (List.sublist_append_right _ _)
      refine List.Sublist.cons_cons _ (List.Sublist.append (List.Sublist.refl _) (List.Sublist.cons_cons _ (List.nil_sublist _)))
    · have hX' := hX
      rw [Ll] at hX'
      obtain ⟨X1, X2, A', B', d1, d2, d3⟩ := infix_split nl hX' (c1.subset (by simp))
      have hXn : X.Nodup := hX.sublist.nodup hnd
      rw [d1] at c1 hXn
      have hb' := pair_left (not_mem_split hXn).1 (not_mem_split hXn).2 c1
      obtain ⟨Z, Y, hY⟩ := mem_split hb'
      have hL : ScanL E px m y Q2 ev'.left (segsOf Al) := by
        have := scanLeft_scanL hS a1 hon (by rw [sl]; exact h6) (by rw [a2]; exact h2)
        rw [sl] at this
        exact this
      have hw : Wit E px m y t Q2 (fun _ => False) (a' :: (Y ++ [ev'.left])) := by
        refine wit_left hL (A' := A' ++ Z) (by rw [d2, hY]; simp) hy c2 c3 c4 ?_
        intro Y1 k Y2 hY1 hkt hvk
        have hin : (a' :: (Y1 ++ [k])) <:+: segsOf Al := ⟨A' ++ Z, Y2, by rw [d2, hY, hY1]; simp⟩
        refine other _ (hin.trans (by rw [Ll]; exact infix_left _ _ _)) (.inl ?_) a' Y1 k rfl t hy c2 hkt hvk
        exact fun hmem => (not_mem_split nl).1 (hin.subset hmem)
      refine hw.mono ?_ (fun _ h => h) fun _ _ h => h
      rw [d1, hY]
      have : Z ++ a' :: Y ++ ev'.left :: X2 = Z ++ ((a' :: Y ++ [ev'.left]) ++ X2) := by simp
      rw [this]
      exact (List.sublist_append_left _ _).trans (List.sublist_append_right _ _)
  · exact .inr (.inr ⟨ev', hk _ h3, h4⟩)

theorem collectMoves_inl {line : List Entry} {left right : Nat} (js : List Nat) :
    ∀ {acc : List Nat} {y' : K}, collectMoves E y line left right js acc = some (.inl y') →
      ∃ j ∈ js, ∃ e, line[j]? = some e ∧ e.willReallyExit = false ∧ DefLeft E y left e.seg ∧ DefLeft E y e.seg right := by
  induction js with
  | nil => intro acc y' h; simp [collectMoves] at h
  | cons j js ih =>
    intro acc y' h
    have skip : ∀ {acc}, collectMoves E y line left right js acc = some (.inl y') →
        ∃ j' ∈ j :: js, ∃ e, line[j']? = some e ∧ e.willReallyExit = false ∧ DefLeft E y left e.seg ∧ DefLeft E y e.seg right := by
      intro acc h
      obtain ⟨j', h1, h2⟩ := ih h
      exact ⟨j', List.mem_cons_of_mem _ h1, h2⟩
    simp only [collectMoves] at h
    split at h
    · simp at h
    rename_i e he
    split at h
    · exact skip h
    rename_i hw
    split at h
    · simp at h
    rename_i p hp
    split at h
    · rename_i ho
      split at h
      · simp at h
      rename_i q hq
      split at h
      · rename_i hq2
        exact ⟨j, by simp, e, he, by simpa using hw, ⟨p, hp, ho⟩, ⟨q, hq, hq2⟩⟩
      · exact skip h
    · exact skip h

theorem segsOf_markOld (line : List Entry) (a b : Nat) : segsOf (markOld line a b) = segsOf line := by
  have h := congrArg (List.map Entry.seg) (markOld_core line a b)
  simpa [segsOf, Entry.core, Function.comp_def] using h

/-- Handling an event that has just been taken from the queue. -/
theorem handleIntersection_crossings (hS : E.Sound px m) {s s' : State K} {ev : IEvent K} (hon : ∀ f ∈ s.line, OnLine E s.y f.seg)
    (hnd : (lineIds s.line).Nodup) (hold : ∀ f ∈ s.line, ∀ o, f.oldSeg = some o → E.endY o = s.y)
    (hdead : ∀ f ∈ s.line, E.endY f.seg = s.y → f.willReallyExit = true)
    (hsafe : SwapSafe E s ev.left ev.right) (h : handleIntersection E s ev.left ev.right = some s')
    (hc : Crossings E px m s.y (ev :: s.ints) (fun _ => False) (segsOf s.line)) :
    Crossings E px m s.y s'.ints (fun _ => False) (segsOf s'.line) := by
  have hn : (segsOf s.line).Nodup := (segs_sublist s.line).nodup hnd
  have hpos : ∀ {x i : Nat} {e : Entry}, position s.line x = some i → s.line[i]? = some e → s.y < E.endY x → e.seg = x := by
    intro x i e h1 h2 h3
    obtain ⟨f, h4, h5⟩ := position_some h1
    rw [h2, Option.some.injEq] at h4
    subst h4
    rcases h5 with h5 | h5
    · exact h5
    · rw [hold e (List.mem_of_getElem? h2) x h5] at h3
      exact absurd h3 (lt_irrefl _)
  unfold handleIntersection at h
  split at h
  case h_2 => simp at h
  rename_i l r hl hr
  obtain ⟨el, el1, -⟩ := position_some hl
  obtain ⟨er, er1, -⟩ := position_some hr
  by_cases hlr : l < r
  · rw [if_pos hlr] at h
    have hsf := hsafe l r hl hr hlr
    split at h
    · simp at h
    · rename_i y' hy'
      exfalso
      obtain ⟨j, h1, e, h2, h3, h4, h5⟩ := collectMoves_inl _ hy'
      rw [List.mem_range'_1] at h1
      exact (hsf j e (by omega) (by omega) h2 (.inr ⟨h3, h4⟩)).1 (by omega) h5
    · rename_i moves hm
      obtain ⟨sub, m1, m2, m3⟩ := collectMoves_spec _ hm
      have hmv : moves = l :: sub := by simpa using m1
      subst hmv
      obtain ⟨s1, s2⟩ := collect_sorted m2
      split at h
      · simp at h
      rename_i removed line2 q2 hrem
      rw [Option.map_eq_some_iff] at h
      obtain ⟨res, hres, rfl⟩ := h
      dsimp only
      set line1 := markOld s.line l (r + 1) with hline1
      have hseg1 : segsOf line1 = segsOf s.line := segsOf_markOld _ _ _
      have hget1 : ∀ {i : Nat} {e : Entry}, line1[i]? = some e → ∃ f, s.line[i]? = some f ∧ f.core = e.core := fun h => markOld_marks h
      have hon1 : ∀ f ∈ line1, OnLine E s.y f.seg := by
        intro f hf
        have : f.seg ∈ segsOf line1 := List.mem_map_of_mem hf
        rw [hseg1] at this
        obtain ⟨g, hg, hge⟩ := List.mem_map.1 this
        rw [← hge]
        exact hon g hg
      have hlive1 : ∀ j ∈ l :: sub, ∀ e x : Entry, line1[j]? = some e → 0 < j → line1[j - 1]? = some x → s.y < E.endY e.seg → s.y < E.endY x.seg := by
        intro j hj e x h1 h2 h3 h4
        obtain ⟨e', f1, f2⟩ := hget1 h1
        obtain ⟨x', f3, f4⟩ := hget1 h3
        rw [← (core_tuple f2).1] at h4
        rw [← (core_tuple f4).1]
        have hb := s2 j hj
        refine (hsf j e' hb.1 (hb.2 hlr) f1 ?_).2 x' h2 f3 h4
        rcases List.mem_cons.1 hj with h5 | h5
        · exact .inl h5
        · obtain ⟨e'', k1, k2, _⟩ := m3 j (m2.subset h5)
          rw [f1, Option.some.injEq] at k1
          subst k1
          exact .inr ⟨(k2 h5).1, (k2 h5).2.1⟩
      -- the removals
      obtain ⟨g1, g2, -, -⟩ := removeScan_spec (l :: sub).reverse (List.pairwise_reverse.2 s1) hrem
      have hes : ∀ f ∈ removed, OnLine E s.y f.seg := by
        intro f hf
        dsimp only at g1
        rw [g1, List.mem_filterMap] at hf
        obtain ⟨j, _, hj⟩ := hf
        exact hon1 f (List.mem_of_getElem? hj)
      have hon2 : ∀ f ∈ line2, OnLine E s.y f.seg := by
        dsimp only at g2
        have : ∀ (js : List Nat) (L : List Entry), ∀ f ∈ js.foldl List.eraseIdx L, f ∈ L := by
          intro js
          induction js with
          | nil => intro L f hf; exact hf
          | cons j js ih => intro L f hf; exact List.mem_of_mem_eraseIdx (ih _ f hf)
        intro f hf
        rw [g2] at hf
        exact hon1 f (this _ _ f hf)
      refine insertAll_crossings hS removed hres hon2 hes ?_
      -- the first removal
      let p : List Nat → Prop := fun X => ¬ (s.y < E.endY ev.left ∧ s.y < E.endY ev.right ∧ ev.left ∈ X ∧ ev.right ∈ X)
      have hcp : CIp E px m s.y s.ints (fun _ => False) p (segsOf line1) := by
        rw [hseg1]
        intro X hX hp a M b e t hy h1 h2 hv
        rcases hc X hX a M b e t hy h1 h2 hv with h | h | ⟨ev', h3, h4⟩
        · exact .inl h
        · exact .inr (.inl h)
        · rcases List.mem_cons.1 h3 with rfl | h3
          · exfalso
            obtain ⟨h5, h6, h7, h8⟩ := h4
            refine hp ⟨h6, h7, ?_⟩
            rcases h8 with h8 | ⟨h8, _⟩
            · exact ⟨h8.subset (by simp), h8.subset (by simp)⟩
            · exact ⟨h8.subset (by simp), h8.subset (by simp)⟩
          · exact .inr (.inr ⟨ev', h3, h4⟩)
      have hlast : ∃ j js, (l :: sub).reverse = j :: js := by
        cases hh : (l :: sub).reverse with
        | nil => simp at hh
        | cons j js => exact ⟨j, js, rfl⟩
      obtain ⟨j, js, hjs⟩ := hlast
      have hjm : j ∈ l :: sub := by rw [← List.mem_reverse, hjs]; simp
      have hjm' : ∀ i ∈ js, i ∈ l :: sub := fun i hi => by rw [← List.mem_reverse, hjs]; simp [hi]
      have hpw := List.pairwise_reverse.2 s1
      have hjb := s2 j hjm
      rw [hjs] at hrem hpw
      rw [List.pairwise_cons] at hpw
      simp only [removeScan] at hrem
      split at hrem
      · simp at hrem
      rename_i e he
      split at hrem
      · simp at hrem
      rename_i q1 hq1
      split at hrem
      · simp at hrem
      rename_i rem' line' q' hr'
      simp only [Option.some.injEq, Prod.mk.injEq] at hrem
      obtain ⟨-, rfl, rfl⟩ := hrem
      have hmark : ∀ {i : Nat} {e : Entry}, s.line[i]? = some e → (segsOf line1)[i]? = some e.seg := by
        intro i e h1
        rw [hseg1, segsOf, List.getElem?_map, h1]; rfl
      have hn1 : (segsOf line1).Nodup := by rw [hseg1]; exact hn
      have hidx : ∀ {i k : Nat} {x : Nat}, (segsOf line1)[i]? = some x → (segsOf line1)[k]? = some x → i = k := by
        intro i k x h1 h2
        obtain ⟨h3, h4⟩ := List.getElem?_eq_some_iff.1 h1
        obtain ⟨h5, h6⟩ := List.getElem?_eq_some_iff.1 h2
        exact (List.Nodup.getElem_inj_iff hn1).1 (h4.trans h6.symm)
      have hfirst : Crossings E px m s.y q1 (fun _ => False) (segsOf (line1.eraseIdx j)) := by
        refine remove_step hS (p := p) he hon1 hq1 (fun x h1 h2 h3 => hlive1 j hjm e x he h1 h2 h3) hcp ?_ ?_ ?_
        · rintro X hX ⟨h1, h2, h3, h4⟩
          have h5 := hX.subset h4
          obtain ⟨f, hf, hf2⟩ := List.mem_map.1 h5
          obtain ⟨i, hi, hi2⟩ := List.mem_iff_getElem.1 hf
          have hij : i < j := by simp at hi; omega
          have h6 : (segsOf line1)[i]? = some ev.right := by
            rw [segsOf, List.getElem?_map, ← hf2, ← hi2]
            rw [List.getElem_take, List.getElem?_eq_getElem]; rfl
          have h7 := hmark er1
          rw [hpos hr er1 h2] at h7
          have := hidx h6 h7
          have := hjb.2 hlr
          omega
        · rintro X hX ⟨h1, h2, h3, h4⟩
          have h5 := hX.subset h3
          obtain ⟨f, hf, hf2⟩ := List.mem_map.1 h5
          obtain ⟨i, hi, hi2⟩ := List.mem_iff_getElem.1 hf
          have h6 : (segsOf line1)[j + 1 + i]? = some ev.left := by
            rw [segsOf, List.getElem?_map, ← hf2, ← hi2]
            rw [List.getElem_drop, List.getElem?_eq_getElem]; rfl
          have h7 := hmark el1
          rw [hpos hl el1 h1] at h7
          have := hidx h6 h7
          have := hjb.1
          omega
        · rintro hde X ⟨h1, h2, h3, h4⟩
          obtain ⟨e', f1, f2⟩ := hget1 he
          rw [← (core_tuple f2).1] at hde
          rcases List.mem_cons.1 hjm with h5 | h5
          · subst h5
            rw [hpos hl f1 h1] at hde
            rw [hde] at h1
            exact lt_irrefl _ h1
          · obtain ⟨e'', k1, k2, _⟩ := m3 j (m2.subset h5)
            rw [f1, Option.some.injEq] at k1
            subst k1
            have := hdead e' (List.mem_of_getElem? f1) hde
            rw [(k2 h5).1] at this
            simp at this
      refine removeScan_crossings hS (r := (rem', _, _)) js hpw.2 hr' (fun f hf => hon1 f (List.mem_of_mem_eraseIdx hf)) ?_ hfirst
      intro i hi f x h1 h2 h3
      have hlt := hpw.1 i hi
      rw [List.getElem?_eraseIdx, if_pos (by omega)] at h1 h3
      exact hlive1 i (hjm' i hi) f x h1 h2 h3
  · rw [if_neg hlr, Option.map_eq_some_iff] at h
    obtain ⟨q', hq', rfl⟩ := h
    rw [Option.bind_eq_some_iff] at hq'
    obtain ⟨q1, h1, h2⟩ := hq'
    exact touch_crossings hS hon hn el1 er1 (by omega) (hpos hl el1) (hpos hr er1) h1 h2 hc

end Verif.Sweep
