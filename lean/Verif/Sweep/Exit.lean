import Verif.Sweep.Enter

/-! Segments leaving the sweep line. -/

namespace Verif.Sweep
open Verif.Curve Verif.Range Verif.Topo
set_option linter.unusedSectionVars false

variable {K : Type} [LinearOrder K]

/-- What an entry may look like after the entrances and exits. -/
inductive Kind (E : Env K) (y : K) (e : Entry) : Prop
  | stays : e.enter = false → e.exit = false → e.oldSeg = none → Kind E y e
  | enters : e.enter = true → e.exit = false → e.oldSeg = none → E.startY e.seg = y → Kind E y e
  | continues (o : Nat) : e.enter = true → e.exit = true → e.oldSeg = some o → E.startY e.seg = y →
      E.neighborAbove e.seg = some o → E.startY o < y → E.endX o = E.startX e.seg → E.endY o = y → Kind E y e
  | exits : e.enter = false → e.exit = true → e.oldSeg = none → E.endY e.seg = y → Kind E y e

theorem EnterKind.kind {E : Env K} {y : K} {e : Entry} (h : EnterKind E y e) : Kind E y e := by
  cases h with
  | stays a b c => exact .stays a b c
  | enters a b c d => exact .enters a b c d
  | continues o a b c d f g h i => exact .continues o a b c d f g h i

/-- The line while the segments in `done` have been marked as leaving. `I` are the segments on the line. -/
structure ExitInv (E : Env K) (y : K) (S0 I : List Nat) (done : List Nat) (s : State K) : Prop where
  y_eq : s.y = y
  old : oldSegs s.line = S0
  blank : ∀ e ∈ s.line, e.inCh = false ∧ e.oldIdx = none
  kinds : ∀ e ∈ s.line, Kind E y e
  ids : (lineIds s.line).Perm I
  snp : ∀ i, i ∈ s.snp ↔ ∃ e, s.line[i]? = some e ∧ (e.enter = true ∨ e.exit = true)
  gone : ∀ x ∈ done, ∃ e ∈ s.line, (e.seg = x ∧ e.exit = true ∧ e.oldSeg = none) ∨ e.oldSeg = some x

theorem EnterInv.exitInv {E : Env K} {y : K} {S0 done : List Nat} {s : State K} (h : EnterInv E y S0 done s) :
    ExitInv E y S0 (S0 ++ done.filter fun x => !E.isHorizontal x) [] s := by
  refine ⟨h.y_eq, h.old, h.blank, fun e he => (h.kinds e he).kind, h.ids, ?_, by simp⟩
  intro i
  rw [h.snp]
  constructor
  · rintro ⟨e, h1, h2⟩; exact ⟨e, h1, .inl h2⟩
  · rintro ⟨e, h1, h2 | h2⟩
    · exact ⟨e, h1, h2⟩
    · refine ⟨e, h1, ?_⟩
      rcases h.kinds e (List.mem_of_getElem? h1) with ⟨_, b, _⟩ | ⟨a, _, _⟩ | ⟨o, a, _⟩
      · rw [b] at h2; simp at h2
      · exact a
      · exact a

theorem position_some {line : List Entry} {seg i : Nat} (h : position line seg = some i) :
    ∃ e, line[i]? = some e ∧ (e.seg = seg ∨ e.oldSeg = some seg) := by
  unfold position at h
  rw [List.findIdx?_eq_some_iff_getElem] at h
  obtain ⟨hi, h1, _⟩ := h
  refine ⟨line[i], by simp, ?_⟩
  simpa using h1

theorem handleExit_inv {E : Env K} {y : K} {S0 I done : List Nat} {s s' : State K} {seg : Nat}
    (h : ExitInv E y S0 I done s) (hy : E.endY seg = y) (hh : E.isHorizontal seg = false) (he : handleExit E s seg = some s') :
    ExitInv E y S0 I (done ++ [seg]) s' ∧ (QInv y s.ints → QInv y s'.ints) ∧ s'.nextEnter = s.nextEnter ∧ s'.nextExit = s.nextExit ∧
      s'.chg = s.chg ∧ s'.horiz = s.horiz := by
  unfold handleExit at he
  split at he
  · simp at he
  rename_i pos hpos
  split at he
  · simp at he
  rename_i e hpe
  obtain ⟨e', h1, h2⟩ := position_some hpos
  rw [hpe] at h1
  simp only [Option.some.injEq] at h1
  subst h1
  have hmem : e ∈ s.line := List.mem_of_getElem? hpe
  by_cases ho : e.oldSeg = some seg
  · rw [if_pos ho] at he
    simp only [Option.some.injEq] at he
    subst he
    refine ⟨⟨h.y_eq, h.old, h.blank, h.kinds, h.ids, h.snp, ?_⟩, fun q => q, rfl, rfl, rfl, rfl⟩
    intro x hx
    rcases List.mem_append.1 hx with hx | hx
    · exact h.gone x hx
    · have : x = seg := by simpa using hx
      subst this
      exact ⟨e, hmem, .inr ho⟩
  · rw [if_neg ho] at he
    dsimp only at he
    rw [Option.map_eq_some_iff] at he
    obtain ⟨q', hq', rfl⟩ := he
    have hseg : e.seg = seg := h2.resolve_right ho
    have hne : E.startY seg ≠ y := by
      intro h3
      unfold Env.isHorizontal at hh
      rw [h3, hy] at hh
      simp at hh
    have hk : e.enter = false ∧ e.oldSeg = none := by
      rcases h.kinds e hmem with ⟨a, b, c⟩ | ⟨a, b, c, d⟩ | ⟨o, a, b, c, d⟩ | ⟨a, b, c, d⟩
      · exact ⟨a, c⟩
      · exact absurd (hseg ▸ d) hne
      · exact absurd (hseg ▸ d) hne
      · exact ⟨a, c⟩
    obtain ⟨l1, l2, e1, e2, e3, -⟩ := split_at hpe
    refine ⟨⟨h.y_eq, ?_, ?_, ?_, ?_, ?_, ?_⟩, ?_, rfl, rfl, rfl, rfl⟩
    · dsimp only
      rw [e3, ← h.old, e1]
      simp [oldSegs, Entry.oldOf, List.filterMap_cons]
    · dsimp only
      rw [e3]
      intro f hf
      rw [List.mem_append, List.mem_cons] at hf
      have hb := h.blank
      rw [e1] at hb
      rcases hf with hf | rfl | hf
      · exact hb f (by simp [hf])
      · exact hb e (by simp)
      · exact hb f (by simp [hf])
    · dsimp only
      rw [e3]
      intro f hf
      rw [List.mem_append, List.mem_cons] at hf
      have hb := h.kinds
      rw [e1] at hb
      rcases hf with hf | rfl | hf
      · exact hb f (by simp [hf])
      · exact .exits hk.1 rfl hk.2 (by simpa [hseg] using hy)
      · exact hb f (by simp [hf])
    · dsimp only
      rw [e3]
      refine List.Perm.trans ?_ h.ids
      rw [e1, lineIds_append, lineIds_cons, lineIds_append, lineIds_cons]
      exact List.Perm.refl _
    · intro i
      dsimp only
      rw [List.mem_append, h.snp i, List.getElem?_set]
      have hlt := (List.getElem?_eq_some_iff.1 hpe).1
      constructor
      · rintro (⟨f, h5, h6⟩ | h5)
        · split_ifs with h7
          · exact ⟨_, rfl, .inr rfl⟩
          · exact ⟨f, h5, h6⟩
        · have : i = pos := by simpa using h5
          subst this
          rw [if_pos rfl, if_pos hlt]; exact ⟨_, rfl, .inr rfl⟩
      · rintro ⟨f, h5, h6⟩
        split_ifs at h5 with h7
        · subst h7; exact .inr (by simp)
        · exact .inl ⟨f, h5, h6⟩
    · intro x hx
      dsimp only
      rw [e3]
      rcases List.mem_append.1 hx with hx | hx
      · obtain ⟨f, hf, hf2⟩ := h.gone x hx
        rw [e1, List.mem_append, List.mem_cons] at hf
        rcases hf with hf | rfl | hf
        · exact ⟨f, by simp [hf], hf2⟩
        · refine ⟨_, List.mem_append.2 (.inr (List.mem_cons_self ..)), ?_⟩
          rcases hf2 with ⟨a, b, c⟩ | hf2
          · exact .inl ⟨a, rfl, c⟩
          · exact .inr hf2
        · exact ⟨f, by simp [hf], hf2⟩
      · have : x = seg := by simpa using hx
        subst this
        exact ⟨_, List.mem_append.2 (.inr (List.mem_cons_self ..)), .inl ⟨hseg, rfl, hk.2⟩⟩
    · intro q
      have := scanForRemoval_grows hq'
      rw [h.y_eq] at this
      exact this.qinv q

/-! ## The loops -/

theorem handleAll_enter {E : Env K} {y : K} {S0 : List Nat} (l : List (K × Nat)) :
    ∀ {done : List Nat} {s s' : State K}, EnterInv E y S0 done s → (∀ p ∈ l, p.1 = E.startY p.2) →
      handleAll (handleEnter E) y l s = some s' →
      EnterInv E y S0 (done ++ l.map Prod.snd) s' ∧ (QInv y s.ints → QInv y s'.ints) ∧ s'.nextEnter = s.nextEnter ∧
        s'.nextExit = s.nextExit ∧ s'.chg = s.chg ∧ ∀ p ∈ l, p.1 = y := by
  induction l with
  | nil =>
    intro done s s' h _ he
    simp only [handleAll, Option.some.injEq] at he
    subst he
    exact ⟨by simpa using h, fun q => q, rfl, rfl, rfl, by simp⟩
  | cons p l ih =>
    intro done s s' h hl he
    simp only [handleAll] at he
    split_ifs at he with h1
    split at he
    · simp at he
    rename_i s1 hs1
    obtain ⟨g1, g2, g3, g4, g5⟩ := handleEnter_inv h ((hl p (by simp)).symm.trans h1) hs1
    obtain ⟨k1, k2, k3, k4, k5, k6⟩ := ih g1 (fun q hq => hl q (List.mem_cons_of_mem _ hq)) he
    refine ⟨by simpa using k1, fun q => k2 (g2 q), k3.trans g3, k4.trans g4, k5.trans g5, ?_⟩
    intro q hq
    rcases List.mem_cons.1 hq with rfl | hq
    · exact h1
    · exact k6 q hq

theorem handleAll_exit {E : Env K} {y : K} {S0 I : List Nat} (l : List (K × Nat)) :
    ∀ {done : List Nat} {s s' : State K}, ExitInv E y S0 I done s → (∀ p ∈ l, p.1 = E.endY p.2 ∧ E.isHorizontal p.2 = false) →
      handleAll (handleExit E) y l s = some s' →
      ExitInv E y S0 I (done ++ l.map Prod.snd) s' ∧ (QInv y s.ints → QInv y s'.ints) ∧ s'.nextEnter = s.nextEnter ∧
        s'.nextExit = s.nextExit ∧ s'.chg = s.chg ∧ s'.horiz = s.horiz ∧ ∀ p ∈ l, p.1 = y := by
  induction l with
  | nil =>
    intro done s s' h _ he
    simp only [handleAll, Option.some.injEq] at he
    subst he
    exact ⟨by simpa using h, fun q => q, rfl, rfl, rfl, rfl, by simp⟩
  | cons p l ih =>
    intro done s s' h hl he
    simp only [handleAll] at he
    split_ifs at he with h1
    split at he
    · simp at he
    rename_i s1 hs1
    obtain ⟨g1, g2, g3, g4, g5, g6⟩ := handleExit_inv h ((hl p (by simp)).1.symm.trans h1) (hl p (by simp)).2 hs1
    obtain ⟨k1, k2, k3, k4, k5, k6, k7⟩ := ih g1 (fun q hq => hl q (List.mem_cons_of_mem _ hq)) he
    refine ⟨by simpa using k1, fun q => k2 (g2 q), k3.trans g3, k4.trans g4, k5.trans g5, k6.trans g6, ?_⟩
    intro q hq
    rcases List.mem_cons.1 hq with rfl | hq
    · exact h1
    · exact k7 q hq

end Verif.Sweep
