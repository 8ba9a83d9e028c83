import Verif.Sweep.GenericStep
import Verif.Sweep.OrderMain

/-! # Segments in general position: intersections -/

namespace Verif.Sweep
open Verif.Curve Verif.Range Verif.Topo
set_option linter.unusedSectionVars false

section
variable {K : Type} [LinearOrder K] {E : Env K} {y : K}

/-- Two segments of the line that are close to each other and not tame are neighbours. -/
theorem OnLineG.adjacent (hG : E.Generic) {line : List Entry} (hl : OnLineG E y line) {l r : Nat} {el er : Entry} (h1 : line[l]? = some el) (h2 : line[r]? = some er)
    (hlr : l < r) (hN : E.Near y el.seg er.seg) (hw : ¬ E.Tame el.seg er.seg) : ∃ A B, line = A ++ el :: er :: B ∧ A.length = l ∧ r = l + 1 := by
  obtain ⟨A, C, e1, e2, -, -⟩ := split_at h1
  have hr : C[r - l - 1]? = some er := by
    rw [e1, List.getElem?_append_right (by omega), e2] at h2
    obtain ⟨k, hk⟩ : ∃ k, r - l = k + 1 := ⟨r - l - 1, by omega⟩
    rw [hk, List.getElem?_cons_succ] at h2
    rw [hk]; exact h2
  obtain ⟨M, B, e3, e4, -, -⟩ := split_at hr
  cases M with
  | nil =>
    simp only [List.length_nil] at e4
    exact ⟨A, B, by rw [e1, e3]; rfl, e2, by omega⟩
  | cons m M =>
    exfalso
    have hon := hl.on
    rw [e1, e3] at hl hon
    obtain ⟨p1, p2⟩ := hl.pair.2 m (by simp)
    obtain ⟨p5, p6⟩ := hl.pair.2 er (by simp)
    have e5 : A ++ el :: (m :: M ++ er :: B) = (A ++ el :: m :: M) ++ er :: B := by simp
    rw [e5] at hl
    obtain ⟨p3, p4⟩ := hl.pair.1 m (by simp)
    exact hG.squeeze (hon el (by simp)) (hon m (by simp)) (hon er (by simp)) p2.1 p4.1 hN hw p1 p3 p5

/-- Segments of the line that are about to cross are not tame. -/
theorem OnLineG.wild (hG : E.Generic) {line : List Entry} (hl : OnLineG E y line) {l r : Nat} {el er : Entry} (h1 : line[l]? = some el) (h2 : line[r]? = some er)
    (hlr : l < r) (hd : E.Due y el.seg er.seg) : ¬ E.Tame el.seg er.seg := by
  intro ht
  obtain ⟨h1', e1⟩ := List.getElem?_eq_some_iff.1 h1
  obtain ⟨h2', e2⟩ := List.getElem?_eq_some_iff.1 h2
  have := (List.pairwise_iff_getElem.1 hl.order) l r h1' h2' hlr
  rw [e1, e2] at this
  exact this.2.2 ht (hd.lt hG.comparable (hl.on el (List.mem_of_getElem? h1)) (hl.on er (List.mem_of_getElem? h2)))

theorem OnLineG.swap (hG : E.Generic) {A B : List Entry} {el er el' : Entry} (hl : OnLineG E y (A ++ el :: er :: B)) (he : el'.seg = el.seg)
    (hd : E.Due y el.seg er.seg) (hw : ¬ E.Tame el.seg er.seg) (h1 : y < E.endY el.seg) (h2 : y < E.endY er.seg) : OnLineG E y (A ++ er :: el' :: B) := by
  have hon := hl.on
  have hol := hon el (by simp)
  have hor := hon er (by simp)
  obtain ⟨hne, _⟩ := hl.pair.2 er (by simp)
  have hb := hl.pair.2
  have ha := hl.pair.1
  refine ⟨?_, ?_, ?_⟩
  · intro f hf
    simp only [List.mem_append, List.mem_cons] at hf
    rcases hf with hf | rfl | rfl | hf
    · exact hon f (by simp [hf])
    · exact hor
    · rw [he]; exact hol
    · exact hon f (by simp [hf])
  · have hp : ((A ++ er :: el' :: B).map Entry.seg).Perm ((A ++ el :: er :: B).map Entry.seg) := by
      simp only [List.map_append, List.map_cons, he]
      exact (List.Perm.swap _ _ _).append_left _
    exact hp.nodup_iff.2 hl.nodup
  · have ho := hl.order
    rw [List.pairwise_append, List.pairwise_cons, List.pairwise_cons] at ho ⊢
    obtain ⟨o1, ⟨o2, o3, o4⟩, o5⟩ := ho
    refine ⟨o1, ⟨?_, ?_, o4⟩, ?_⟩
    · intro f hf
      rcases List.mem_cons.1 hf with rfl | hf
      · rw [he]
        exact ⟨(hd.near hG).1, fun _ _ => hd.asymm hG hol hor hne h1 h2, fun ht => absurd ht.symm hw⟩
      · exact o3 f hf
    · intro f hf
      rw [he]; exact o2 f (by simp [hf])
    · intro a ha b hb
      rcases List.mem_cons.1 hb with rfl | hb
      · exact o5 a ha b (by simp)
      · rcases List.mem_cons.1 hb with rfl | hb
        · rw [he]; exact o5 a ha el (by simp)
        · exact o5 a ha b (by simp [hb])

theorem live_position {line : List Entry} (hold : ∀ f ∈ line, ∀ o, f.oldSeg = some o → E.endY o = y) {x n : Nat} (hn : position line x = some n)
    (hx : y < E.endY x) : ∃ e, line[n]? = some e ∧ e.seg = x := by
  obtain ⟨e, h1, h2⟩ := position_some hn
  rcases h2 with h2 | h2
  · exact ⟨e, h1, h2⟩
  · rw [hold e (List.mem_of_getElem? h1) x h2] at hx
    exact absurd hx (lt_irrefl _)

theorem swapSafe_generic (hG : E.Generic) {s : State K} {ev : IEvent K} (hy : s.y = y) (hl : OnLineG E y s.line)
    (hold : ∀ f ∈ s.line, ∀ o, f.oldSeg = some o → E.endY o = y) (hev : EvDue E ev) (hye : ev.y = y) : SwapSafe E s ev.left ev.right := by
  obtain ⟨v1, v2, v3, v4, v5, v6⟩ := hev
  rw [hye] at v1 v2 v4 v5 v6
  intro l r hpl hpr hlr j e h1 h2 he _
  obtain ⟨el, l1, l2⟩ := live_position hold hpl v4
  obtain ⟨er, r1, r2⟩ := live_position hold hpr v5
  have hw := hl.wild hG l1 r1 hlr (by rw [l2, r2]; exact v6)
  obtain ⟨A, B, e1, e2, e3⟩ := hl.adjacent hG l1 r1 hlr (by rw [l2, r2]; exact v6.near hG) hw
  rw [l2, r2] at hw
  have hj : j = l := by omega
  refine ⟨fun h => by omega, ?_⟩
  intro x h0 hx _
  rw [hy]
  by_contra hle
  have hox := hl.on x (List.mem_of_getElem? hx)
  have hend : E.endY x.seg = y := le_antisymm (not_lt.1 hle) hox.2.2
  obtain ⟨g1, g2, _⟩ := hG.vertex _ _ y v1 v2 v3 hw (v6.near hG) v4 v5 ⟨x.seg, hox.1.1, .inr hend⟩
  rw [e1] at hl
  have := (hl.pair.2 er (by simp)).2.2.1
  rw [l2, r2] at this
  exact this g1 g2 v6

/-- What handling an intersection does: two neighbours are swapped, or nothing happens to the line and only events of segments that are in the order
of the line are put in the queue. -/
theorem handleIntersection_generic (hG : E.Generic) {s s' : State K} {ev : IEvent K} (hg : GoodG E y s)
    (hold : ∀ f ∈ s.line, ∀ o, f.oldSeg = some o → E.endY o = y) (hev : EvDue E ev) (hye : ev.y = y)
    (h : handleIntersection E s ev.left ev.right = some s') : GoodG E y s' ∧
    ((∃ A B, s.line.map Entry.seg = A ++ ev.left :: ev.right :: B ∧ s'.line.map Entry.seg = A ++ ev.right :: ev.left :: B) ∨
      (s'.line = s.line ∧ [ev.right, ev.left].Sublist (s.line.map Entry.seg) ∧ ∀ e ∈ s'.ints, e ∈ s.ints ∨ Seen E y s.line e)) := by
  obtain ⟨hy, hl, hq⟩ := hg
  obtain ⟨v1, v2, v3, v4, v5, v6⟩ := hev
  rw [hye] at v1 v2 v4 v5 v6
  unfold handleIntersection at h
  split at h
  · rename_i l r hpl hpr
    obtain ⟨el, l1, l2⟩ := live_position hold hpl v4
    obtain ⟨er, r1, r2⟩ := live_position hold hpr v5
    by_cases hlr : l < r
    · rw [if_pos hlr, hy] at h
      have hw := hl.wild hG l1 r1 hlr (by rw [l2, r2]; exact v6)
      obtain ⟨A, B, e1, e2, e3⟩ := hl.adjacent hG l1 r1 hlr (by rw [l2, r2]; exact v6.near hG) hw
      subst e3
      have h0 : l + 1 - l - 1 = 0 := by omega
      rw [h0] at h
      simp only [List.range'_zero, collectMoves, List.reverse_cons, List.reverse_nil, List.nil_append, List.length_singleton, removeScan] at h
      have hm : (markOld s.line l (l + 1 + 1)).map Entry.seg = s.line.map Entry.seg := segsOf_markOld s.line l (l + 1 + 1)
      have hlm := hl.congr hm
      obtain ⟨L, hL⟩ : ∃ L, L = markOld s.line l (l + 1 + 1) := ⟨_, rfl⟩
      rw [← hL] at h hm hlm
      -- the entries of the marked line
      obtain ⟨A', el', er', B', f1, f2, f3, f4, f5, f6⟩ : ∃ A' el' er' B', L = A' ++ el' :: er' :: B' ∧ A'.map Entry.seg = A.map Entry.seg ∧
          el'.seg = el.seg ∧ er'.seg = er.seg ∧ B'.map Entry.seg = B.map Entry.seg ∧ A'.length = l := by
        rw [e1] at hm
        rw [List.map_append, List.map_cons, List.map_cons] at hm
        obtain ⟨A', R, f1, f2, f3⟩ := List.map_eq_append_iff.1 hm
        obtain ⟨el', R', f4, f5, f6⟩ := List.map_eq_cons_iff.1 f3
        obtain ⟨er', B', f7, f8, f9⟩ := List.map_eq_cons_iff.1 f6
        refine ⟨A', el', er', B', by rw [f1, f4, f7], f2, f5, f8, f9, ?_⟩
        have := congrArg List.length f2
        simp only [List.length_map] at this
        omega
      have hget : L[l]? = some el' := by rw [f1, ← f6]; simp
      have her : L.eraseIdx l = A' ++ er' :: B' := by
        rw [f1, ← f6, List.eraseIdx_append_of_length_le (le_refl _), Nat.sub_self, List.eraseIdx_cons_zero]
      rw [hget] at h
      dsimp only at h
      rw [her] at h
      have hl1 : OnLineG E y (A' ++ er' :: B') := hlm.sublist (by
        rw [f1]; exact (List.Sublist.refl _).append (List.sublist_cons_self _ _))
      rw [f1] at hlm
      have hl2 : OnLineG E y (A' ++ er' :: el' :: B') := hlm.swap hG rfl (by rw [f3, f4, l2, r2]; exact v6) (by rw [f3, f4]; exact hw) (by rw [f3, l2]; exact v4) (by rw [f4, r2]; exact v5)
      cases hs1 : scanForRemoval E y (A' ++ er' :: B') l s.ints with
      | none => rw [hs1] at h; simp at h
      | some q1 =>
        rw [hs1] at h
        dsimp only at h
        have hp : l + 1 + 1 - 1 = l + 1 := by omega
        rw [hp] at h
        simp only [insertAll, insertScan] at h
        rw [if_pos (by simp; omega)] at h
        have hi : (A' ++ er' :: B').insertIdx (l + 1) el' = A' ++ er' :: el' :: B' := by
          obtain ⟨l1, l2, k1, k2, k3⟩ := split_insert (A' ++ er' :: B') (l + 1) el' (by simp; omega)
          rw [k3]
          have e5 : A' ++ er' :: B' = (A' ++ [er']) ++ B' := by simp
          rw [e5] at k1
          obtain ⟨j1, j2⟩ := List.append_inj k1.symm (by simp; omega)
          rw [j1, j2]; simp
        rw [hi] at h
        cases hs2 : scanBoth E y (A' ++ er' :: el' :: B') (l + 1) q1 with
        | none => rw [hs2] at h; simp at h
        | some q2 =>
          rw [hs2] at h
          simp only [Option.map_some, Option.some.injEq] at h
          subst h
          refine ⟨⟨rfl, hl2, evs_of_found (evs_of_found hq (scanForRemoval_found hG hl1 hs1)) (scanBoth_found hG hl2 hs2)⟩, .inl ⟨A.map Entry.seg, B.map Entry.seg, ?_, ?_⟩⟩
          · rw [e1]; simp [l2, r2]
          · dsimp only
            simp [f2, f3, f4, f5, l2, r2]
    · rw [if_neg hlr, Option.map_eq_some_iff] at h
      obtain ⟨q2, hq2, rfl⟩ := h
      rw [Option.bind_eq_some_iff] at hq2
      obtain ⟨q1, hq1, hq2⟩ := hq2
      rw [hy] at hq1 hq2
      have hf : ∀ e ∈ q2, e ∈ s.ints ∨ Seen E y s.line e := by
        intro e he
        rcases scanLeft_found hG hl hq2 e he with h1 | h1
        · exact scanRight_found hG hl hq1 e h1
        · exact .inr h1
      refine ⟨⟨hy, hl, evs_of_found hq hf⟩, .inr ⟨rfl, ?_, hf⟩⟩
      obtain ⟨A, C, k1, k2, -, -⟩ := split_at r1
      have hlr' : r < l := by
        rcases Nat.lt_or_eq_of_le (not_lt.1 hlr) with h | h
        · exact h
        · exfalso
          rw [← h, r1, Option.some.injEq] at l1
          exact v3 (by rw [← l2, ← r2, l1])
      have hm : el ∈ C := by
        rw [k1, List.getElem?_append_right (by omega), k2] at l1
        obtain ⟨k, hk⟩ : ∃ k, l - r = k + 1 := ⟨l - r - 1, by omega⟩
        rw [hk, List.getElem?_cons_succ] at l1
        exact List.mem_of_getElem? l1
      rw [k1, ← l2, ← r2]
      exact pair_sublist hm
  · simp at h

end
end Verif.Sweep
