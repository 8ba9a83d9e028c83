import Mathlib.Data.List.Chain
import Mathlib.Data.List.Nodup
import Verif.Contours.Orbit

/-! The walk along one contour. -/

namespace Verif.Contours
open Verif.Topo

variable {K : Type} {W : Type} {t : Topo K W} {inside : W → Bool}

/-- `b` starts where `a` ends. -/
def Joins (t : Topo K W) (a b : Half) : Prop := t.pointIdx b.other = t.pointIdx a

theorem closed_of_chain (l : List Half) (hne : l ≠ []) (hc : l.IsChain (Joins t))
    (hl : ∀ x y, l.head? = some x → l.getLast? = some y → Joins t y x) : Closed t l := by
  refine ⟨hne, ?_⟩
  intro k hk
  by_cases h : k + 1 < l.length
  · have := List.isChain_iff_getElem.1 hc k h
    simp only [Nat.mod_eq_of_lt h]
    exact this
  · have hk1 : k + 1 = l.length := by omega
    have h0 : 0 < l.length := by omega
    have := hl l[0] l[k] (by rw [List.head?_eq_getElem?, List.getElem?_eq_getElem h0]) (by
      rw [List.getLast?_eq_getElem?]
      have : l.length - 1 = k := by omega
      rw [this, List.getElem?_eq_getElem hk])
    have e : (k + 1) % l.length = 0 := by rw [hk1]; exact Nat.mod_self _
    simp only [e]
    exact this

/-- The ends of a closed path are its starts, rotated. -/
theorem ends_perm_starts (l : List Half) (h : Closed t l) :
    (l.map t.pointIdx).Perm (l.map fun x => t.pointIdx x.other) := by
  have e : l.map t.pointIdx = (l.map fun x => t.pointIdx x.other).rotate 1 := by
    apply List.ext_getElem
    · simp
    · intro k h1 h2
      rw [List.getElem_rotate]
      simp only [List.getElem_map, List.length_map]
      exact (h.2 k (by simpa using h1)).symm
  rw [e]
  exact List.rotate_perm _ _

theorem setAll_eq (f : Nat → Option Nat) (segs : List Half) (c j : Nat) :
    setAll f segs c j = if j ∈ segs.map Half.idx then some c else f j := by
  unfold setAll
  induction segs generalizing f with
  | nil => simp
  | cons a l ih =>
    simp only [List.foldl_cons]
    rw [ih]
    unfold Topo.set
    by_cases h1 : j ∈ l.map Half.idx
    · simp [h1]
    · by_cases h2 : j = a.idx <;> simp_all

/-- The `i`-th end met on the walk from `e0`. -/
def en (t : Topo K W) (inside : W → Bool) (e0 : Half) (i : Nat) : Half := (nextEnd t inside)^[i] e0

/-- The loops extracted and the rest of the walk, when the walk has passed the ends number `0, ..., i-1`. -/
structure WCore (t : Topo K W) (inside : W → Bool) (base : CState) (cidx : Nat) (outer : Bool) (e0 : Half)
    (i : Nat) (loops : List (List Half)) (segs : List Half) (st : CState) : Prop where
  vis : ∀ j, st.visited j = true ↔ base.visited j = true ∨ ∃ k < i, (en t inside e0 k).idx = j
  contours : st.contours = base.contours ++ loops.map fun l => ⟨l, some cidx, !outer⟩
  perm : (loops.flatten ++ segs).Perm ((List.range i).map (en t inside e0))
  segOld : ∀ j, (∀ l ∈ loops, ∀ h ∈ l, h.idx ≠ j) → st.segContour j = base.segContour j
  segNew : ∀ a l, loops[a]? = some l → ∀ h ∈ l, st.segContour h.idx = some (base.contours.length + a)
  good : ∀ l ∈ loops, Closed t l ∧ (l.map fun x => t.pointIdx x.other).Nodup

structure WInv (t : Topo K W) (inside : W → Bool) (base : CState) (cidx : Nat) (outer : Bool) (e0 : Half)
    (i : Nat) (loops : List (List Half)) (segs : List Half) (st : CState) : Prop extends
    WCore t inside base cidx outer e0 i loops segs st where
  chain : (segs ++ [en t inside e0 i]).IsChain (Joins t)
  headpt : ∀ x, (segs ++ [en t inside e0 i]).head? = some x → t.pointIdx x.other = t.pointIdx e0.other
  lv : ∀ k x, (segs ++ [en t inside e0 i])[k]? = some x → ∃ p, t.pointIdx x.other = some p ∧ st.lastVisit p = some k
  touch : ∀ l ∈ loops, ∃ h ∈ l, ∃ k ≤ i, t.pointIdx h.other = t.pointIdx (en t inside e0 k).other ∧ en t inside e0 k ∉ l

/-- The result of the walk. -/
structure WRes (t : Topo K W) (inside : W → Bool) (base : CState) (cidx : Nat) (outer : Bool) (e0 : Half)
    (m : Nat) (loops : List (List Half)) (segs : List Half) (st : CState) : Prop extends
    WCore t inside base cidx outer e0 m loops segs st where
  closed : Closed t segs
  simple : (segs.map fun x => t.pointIdx x.other).Nodup
  headpt : ∀ x, segs.head? = some x → t.pointIdx x.other = t.pointIdx e0.other
  touch : ∀ l ∈ loops, ∃ h ∈ l, ∃ k < m, t.pointIdx h.other = t.pointIdx (en t inside e0 k).other ∧ en t inside e0 k ∉ l

theorem en_isEnd (hc : Consistent t) {e0 : Half} (he : IsEnd t inside e0) (i : Nat) :
    IsEnd t inside (en t inside e0 i) := by
  unfold en
  induction i with
  | zero => exact he
  | succ i ih => rw [Function.iterate_succ_apply']; exact (nextEnd_spec hc ih).2.1

theorem en_succ (e0 : Half) (i : Nat) : en t inside e0 (i + 1) = nextEnd t inside (en t inside e0 i) := by
  unfold en; rw [Function.iterate_succ_apply']

theorem nodup_of_lv (segs : List Half) (lv : Nat → Option Nat)
    (h : ∀ k x, segs[k]? = some x → ∃ p, t.pointIdx x.other = some p ∧ lv p = some k) :
    (segs.map fun x => t.pointIdx x.other).Nodup := by
  rw [List.nodup_iff_getElem?_ne_getElem?]
  intro i j hij hj he
  simp only [List.length_map] at hj
  rw [List.getElem?_map, List.getElem?_map, List.getElem?_eq_getElem hj, List.getElem?_eq_getElem (by omega)] at he
  obtain ⟨p, hp1, hp2⟩ := h i segs[i] (List.getElem?_eq_getElem (by omega))
  obtain ⟨q, hq1, hq2⟩ := h j segs[j] (List.getElem?_eq_getElem hj)
  simp only [Option.map_some, Option.some.injEq] at he
  rw [hp1, hq1] at he
  simp only [Option.some.injEq] at he
  subst he
  rw [hp2] at hq2
  simp only [Option.some.injEq] at hq2
  omega

theorem walk_spec (hc : Consistent t) (base : CState) (cidx : Nat) (C : Contour) (hC : base.contours[cidx]? = some C)
    (e0 : Half) (he0 : IsEnd t inside e0) (m : Nat) (hm : (nextEnd t inside)^[m] e0 = e0)
    (hdis : ∀ i j, i < j → j < m → en t inside e0 i ≠ en t inside e0 j) (fuel : Nat) (hfuel : 2 * t.n ≤ fuel) :
    ∀ f i loops segs st, i < m → m ≤ i + f → WInv t inside base cidx C.outer e0 i loops segs st →
    ∃ loops' segs' st', walk t inside fuel cidx e0.other f (en t inside e0 i) segs st = some (segs', st') ∧
      WRes t inside base cidx C.outer e0 m loops' segs' st' := by
  intro f
  induction f with
  | zero => intro i loops segs st h1 h2; omega
  | succ f ih =>
    intro i loops segs st h1 h2 inv
    have hend := en_isEnd hc he0 i
    obtain ⟨n1, n2, n3⟩ := nextEnd_spec hc hend
    rw [← en_succ] at n1 n2 n3
    unfold walk
    simp only
    have hfit := hc.fit _ hend.1
    rw [← hfit, hend.2.1, hend.2.2]
    simp only [Bool.not_true, Bool.or_self, Bool.false_eq_true, if_false]
    rw [n1 fuel hfuel]
    simp only
    have iperm := inv.perm
    have ichain := inv.chain
    have ihead := inv.headpt
    have ilv := inv.lv
    generalize hE : en t inside e0 i = ei at hend n1 n3 hfit iperm ichain ihead ilv ⊢
    have hvis : ∀ (j : Nat), (Topo.set st.visited ei.idx true) j = true ↔
        base.visited j = true ∨ ∃ k < i + 1, (en t inside e0 k).idx = j := by
      intro j
      unfold Topo.set
      by_cases hj : j = ei.idx
      · simp only [hj, if_true, true_iff]
        exact .inr ⟨i, by omega, by rw [hE]⟩
      · rw [if_neg hj, inv.vis]
        constructor
        · rintro (h | ⟨k, hk, h⟩)
          · exact .inl h
          · exact .inr ⟨k, by omega, h⟩
        · rintro (h | ⟨k, hk, h⟩)
          · exact .inl h
          · refine .inr ⟨k, ?_, h⟩
            rcases Nat.lt_or_ge k i with q | q
            · exact q
            · exfalso; have : k = i := by omega
              subst this; rw [hE] at h; exact hj h.symm
    have hperm : (loops.flatten ++ (segs ++ [ei])).Perm ((List.range (i + 1)).map (en t inside e0)) := by
      rw [List.range_succ, List.map_append, List.map_singleton, hE, ← List.append_assoc]
      exact iperm.append_right _
    by_cases hstart : (en t inside e0 (i + 1)).other = e0.other
    · -- back at the start
      rw [if_pos hstart]
      have hs : en t inside e0 (i + 1) = e0 := by rw [← other_other (en t inside e0 (i + 1)), hstart, other_other]
      have him : i + 1 = m := by
        by_contra hne
        refine hdis 0 (i + 1) (by omega) (by omega) ?_
        rw [hs]; rfl
      refine ⟨loops, _, _, rfl, ?_⟩
      refine { vis := ?_, contours := inv.contours, perm := ?_, segOld := inv.segOld, segNew := inv.segNew, good := inv.good,
               closed := ?_, simple := ?_, headpt := ihead, touch := ?_ }
      · rw [← him]; exact hvis
      · rw [← him]; exact hperm
      · apply closed_of_chain _ (by simp) ichain
        intro x y hx hy
        have hy : ei = y := by simpa using hy
        subst hy
        unfold Joins
        rw [ihead x hx, ← hstart, n3]
      · exact nodup_of_lv _ st.lastVisit ilv
      · intro l hl
        obtain ⟨h, hh, k, hk, r⟩ := inv.touch l hl
        exact ⟨h, hh, k, by omega, r⟩
    · rw [if_neg hstart]
      have him : i + 1 < m := by
        rcases Nat.lt_or_ge (i + 1) m with q | q
        · exact q
        · exfalso; have : i + 1 = m := by omega
          apply hstart
          rw [this]; unfold en; rw [hm]
      obtain ⟨p, hp⟩ := hc.pt _ n2.1
      obtain ⟨p, hp⟩ := hc.pt (en t inside e0 (i + 1)).other n2.1
      rw [hp]
      simp only
      rw [other_other]
      have hchain : ∀ (l : List Half), (l <+: segs ++ [ei]) → (∀ y, l.getLast? = some y → t.pointIdx y = some p) →
          (l ++ [en t inside e0 (i + 1)]).IsChain (Joins t) := by
        intro l hl hlast
        rw [List.isChain_append]
        refine ⟨?_, .singleton _, ?_⟩
        · obtain ⟨r, hr⟩ := hl
          have := ichain
          rw [← hr] at this
          exact this.left_of_append
        · intro x hx y hy
          simp only [List.head?_cons, Option.mem_def, Option.some.injEq] at hy
          subst hy
          unfold Joins
          rw [hp, hlast x hx]
      cases hlv : (st.lastVisit p).filter fun k =>
            decide (k < (segs ++ [ei]).length) &&
            decide (((segs ++ [ei])[k]?).bind (fun s => t.pointIdx s.other) = some p) with
      | some k =>
        rw [Option.filter_eq_some_iff] at hlv
        obtain ⟨hk0, hk⟩ := hlv
        rw [Bool.and_eq_true, decide_eq_true_eq, decide_eq_true_eq] at hk
        obtain ⟨hk1, hk2⟩ := hk
        rw [List.getElem?_eq_getElem hk1, Option.bind_some] at hk2
        have hC' : st.contours[cidx]? = some C := by
          rw [inv.contours]
          rw [List.getElem?_append_left (List.getElem?_eq_some_iff.1 hC).1]; exact hC
        simp only [hC']
        apply ih (i + 1) (loops ++ [(segs ++ [ei]).drop k]) _ _ him (by omega)
        have hsplit : (segs ++ [ei]).take k ++ (segs ++ [ei]).drop k = segs ++ [ei] := List.take_append_drop _ _
        have hloopne : (segs ++ [ei]).drop k ≠ [] := by
          intro h; rw [List.drop_eq_nil_iff] at h; omega
        have hloophead : ((segs ++ [ei]).drop k).head? = some (segs ++ [ei])[k] := by
          rw [List.head?_drop, List.getElem?_eq_getElem hk1]
        have hnd := nodup_of_lv _ st.lastVisit ilv
        have hdisj : ∀ l ∈ loops, ∀ h ∈ l, h.idx ∉ ((segs ++ [ei]).drop k).map Half.idx := by
          intro l hl h hh hc2
          obtain ⟨h', hh', he⟩ := List.mem_map.1 hc2
          have m1 : h ∈ loops.flatten := List.mem_flatten.2 ⟨l, hl, hh⟩
          have m2 : h' ∈ segs ++ [ei] := (List.drop_sublist _ _).subset hh'
          have hfull : ((List.range (i + 1)).map (en t inside e0)).Nodup := by
            apply List.Nodup.map_on _ List.nodup_range
            intro a ha b hb hab
            rw [List.mem_range] at ha hb
            by_contra hne
            rcases Nat.lt_or_gt_of_ne hne with q | q
            · exact hdis a b q (by omega) hab
            · exact hdis b a q (by omega) hab.symm
          rw [← hperm.nodup_iff, List.nodup_append] at hfull
          have mem_end : ∀ x, x ∈ loops.flatten ++ (segs ++ [ei]) → IsEnd t inside x := by
            intro x hx
            rw [hperm.mem_iff] at hx
            obtain ⟨a, _, rfl⟩ := List.mem_map.1 hx
            exact en_isEnd hc he0 a
          have := isEnd_unique (mem_end h (List.mem_append_left _ m1)) (mem_end h' (List.mem_append_right _ m2)) he.symm
          exact hfull.2.2 h m1 h' m2 this
        refine { vis := hvis, contours := ?_, perm := ?_, segOld := ?_, segNew := ?_, good := ?_,
                 chain := ?_, headpt := ?_, lv := ?_, touch := ?_ }
        · simp only [inv.contours, List.map_append, List.map_singleton, List.append_assoc]
        · refine List.Perm.trans ?_ hperm
          rw [List.flatten_append, List.flatten_singleton, List.append_assoc]
          apply List.Perm.append_left
          refine List.perm_append_comm.trans ?_
          rw [hsplit]
        · intro j hj
          simp only [setAll_eq]
          rw [if_neg, inv.segOld j (fun l hl => hj l (List.mem_append_left _ hl))]
          intro hc2
          obtain ⟨h, hh, he⟩ := List.mem_map.1 hc2
          exact hj _ (List.mem_append_right _ (List.mem_singleton.2 rfl)) h hh he
        · intro a l ha h hh
          simp only [setAll_eq]
          by_cases hal : a < loops.length
          · rw [List.getElem?_append_left hal] at ha
            have hl : l ∈ loops := List.mem_of_getElem? ha
            rw [if_neg (hdisj l hl h hh)]
            exact inv.segNew a l ha h hh
          · have : a = loops.length := by
              have := (List.getElem?_eq_some_iff.1 ha).1
              simp at this; omega
            subst this
            simp only [List.getElem?_concat_length, Option.some.injEq] at ha
            subst ha
            rw [if_pos (List.mem_map_of_mem hh), inv.contours]
            simp
        · intro l hl
          rw [List.mem_append, List.mem_singleton] at hl
          rcases hl with hl | rfl
          · exact inv.good l hl
          · constructor
            · apply closed_of_chain _ hloopne
              · have := ichain; rw [← hsplit] at this; exact this.right_of_append
              · intro x y hx hy
                rw [hloophead] at hx
                have hx : (segs ++ [ei])[k] = x := by simpa using hx
                have hy2 : (segs ++ [ei]).getLast? = some y := by
                  rw [← hsplit, List.getLast?_append, hy]; rfl
                have hy2 : ei = y := by simpa using hy2
                unfold Joins
                rw [← hx, hk2, ← hy2, ← hp, n3]
            · exact ((List.drop_sublist k (segs ++ [ei])).map _).nodup hnd
        · -- chain
          apply hchain _ (List.take_prefix _ _)
          intro y hy
          cases k with
          | zero => simp at hy
          | succ k =>
            have hy' : (segs ++ [ei])[k]? = some y := by
              rw [List.getLast?_eq_getElem?, List.length_take, Nat.min_eq_left (by omega)] at hy
              simpa [List.getElem?_take] using hy
            have := List.isChain_iff_getElem.1 ichain k hk1
            have e : (segs ++ [ei])[k] = y := by
              rw [List.getElem?_eq_getElem (by omega)] at hy'; simpa using hy'
            rw [e] at this
            unfold Joins at this
            rw [← this, hk2]
        · -- headpt
          intro x hx
          by_cases hk00 : k = 0
          · subst hk00
            simp only [List.take_zero, List.nil_append, List.head?_cons, Option.some.injEq] at hx
            subst hx
            rw [hp, ← hk2]
            apply ihead
            rw [List.head?_eq_getElem?, List.getElem?_eq_getElem hk1]
          · apply ihead
            rw [List.head?_append_of_ne_nil _ (by
              intro h; rw [List.take_eq_nil_iff] at h; rcases h with h | h
              · exact hk00 h
              · simp at h)] at hx
            rw [← hsplit, List.head?_append, hx]; rfl
        · -- last visits
          intro k' x hx
          by_cases hkk : k' < k
          · rw [List.getElem?_append_left (by rw [List.length_take]; omega), List.getElem?_take, if_pos hkk] at hx
            exact ilv k' x hx
          · have hlt := (List.getElem?_eq_some_iff.1 hx).1
            rw [List.length_append, List.length_take] at hlt
            simp only [List.length_singleton] at hlt
            have : k' = k := by omega
            subst this
            rw [List.getElem?_append_right (by rw [List.length_take]; omega)] at hx
            have hl : ((segs ++ [ei]).take k').length = k' := by rw [List.length_take]; omega
            rw [hl, Nat.sub_self] at hx
            simp only [List.getElem?_cons_zero, Option.some.injEq] at hx
            subst hx
            exact ⟨p, hp, hk0⟩
        · intro l hl
          rw [List.mem_append, List.mem_singleton] at hl
          rcases hl with hl | rfl
          · obtain ⟨h, hh, k2, hk2, r⟩ := inv.touch l hl
            exact ⟨h, hh, k2, by omega, r⟩
          · refine ⟨(segs ++ [ei])[k], List.mem_of_mem_head? hloophead, i + 1, le_refl _, ?_, ?_⟩
            · rw [hk2, hp]
            · intro hcon
              have hmem : en t inside e0 (i + 1) ∈ loops.flatten ++ (segs ++ [ei]) :=
                List.mem_append_right _ ((List.drop_sublist _ _).subset hcon)
              rw [hperm.mem_iff] at hmem
              obtain ⟨a, ha, he⟩ := List.mem_map.1 hmem
              rw [List.mem_range] at ha
              exact hdis a (i + 1) ha him he
      | none =>
        simp only
        have hnew : ∀ (k : Nat) (x : Half), (segs ++ [ei])[k]? = some x → t.pointIdx x.other ≠ some p := by
          intro k x hx hcon
          obtain ⟨q, hq1, hq2⟩ := ilv k x hx
          rw [hcon] at hq1
          have : p = q := by simpa using hq1
          subst this
          rw [hq2, Option.filter_some] at hlv
          rw [if_pos] at hlv
          · simp at hlv
          · rw [Bool.and_eq_true, decide_eq_true_eq, decide_eq_true_eq]
            exact ⟨(List.getElem?_eq_some_iff.1 hx).1, by rw [hx, Option.bind_some, hcon]⟩
        apply ih (i + 1) loops _ _ him (by omega)
        refine { vis := hvis, contours := inv.contours, perm := hperm, segOld := inv.segOld, segNew := inv.segNew,
                 good := inv.good, chain := ?_, headpt := ?_, lv := ?_, touch := ?_ }
        · apply hchain _ (List.prefix_refl _)
          intro y hy
          have hy : ei = y := by simpa using hy
          subst hy
          rw [← n3, hp]
        · intro x hx
          apply ihead
          rwa [List.head?_append_of_ne_nil _ (by simp)] at hx
        · intro k x hx
          by_cases hkk : k < (segs ++ [ei]).length
          · rw [List.getElem?_append_left hkk] at hx
            obtain ⟨q, hq1, hq2⟩ := ilv k x hx
            refine ⟨q, hq1, ?_⟩
            unfold Topo.set
            simp only
            rw [if_neg, hq2]
            intro hqp
            exact hnew k x hx (by rw [hq1, hqp])
          · have hlt := (List.getElem?_eq_some_iff.1 hx).1
            rw [List.length_append (as := segs ++ [ei])] at hlt
            simp only [List.length_singleton] at hlt
            have : k = (segs ++ [ei]).length := by omega
            subst this
            rw [List.getElem?_concat_length] at hx
            have hx : en t inside e0 (i + 1) = x := by simpa using hx
            subst hx
            refine ⟨p, hp, ?_⟩
            unfold Topo.set; simp
        · intro l hl
          obtain ⟨h, hh, k2, hk2, r⟩ := inv.touch l hl
          exact ⟨h, hh, k2, by omega, r⟩

end Verif.Contours
