import Verif.Sweep.TotalInt

/-!
# The sweep does not panic: the events put in the queue by entrances and exits are legitimate
-/

namespace Verif.Sweep
open Verif.Curve Verif.Range Verif.Topo
set_option linter.unusedSectionVars false

variable {K : Type} [LinearOrder K] {E : Env K}

/-- The segments on the line have this height, and the events are legitimate. -/
structure Sound (E : Env K) (y : K) (s : State K) : Prop where
  y_eq : s.y = y
  on : ∀ e ∈ s.line, E.On y e.seg
  live : Live E y s.ints
  height : y ∈ E.heights

theorem handleEnter_sound (hK : E.Comparable) {y : K} {s s' : State K} {seg : Nat} (hg : Sound E y s) (hseg : seg ∈ E.segs)
    (hst : E.startY seg = y) (hdown : E.startY seg ≤ E.endY seg) (h : handleEnter E s seg = some s') : Sound E y s' := by
  obtain ⟨hy, hon, hq, hH⟩ := hg
  unfold handleEnter at h
  by_cases hh : E.isHorizontal seg = true
  · rw [if_pos hh] at h
    simp only [Option.some.injEq] at h
    subst h
    exact ⟨hy, hon, hq, hH⟩
  rw [if_neg hh, hy] at h
  have hlt : E.startY seg < E.endY seg := lt_of_le_of_ne hdown (by simpa [Env.isHorizontal] using hh)
  have ho : E.On y seg := ⟨⟨hseg, hlt⟩, hst.le, by rw [← hst]; exact hdown⟩
  split at h
  · simp at h
  rename_i pos hpos
  split at h
  · simp at h
  · rename_i p hp
    unfold handleContinuation at h
    split at h
    · simp at h
    rename_i e he
    dsimp only at h
    rw [Option.map_eq_some_iff] at h
    obtain ⟨q', hq', rfl⟩ := h
    rw [hy] at hq'
    have hon' : ∀ f ∈ s.line.set p { e with oldSeg := some e.seg, seg := seg, enter := true, exit := true }, E.On y f.seg := by
      intro f hf
      rcases List.mem_or_eq_of_mem_set hf with hf | rfl
      · exact hon f hf
      · exact ho
    exact ⟨hy, hon', (scanBoth_grows hq').live hK hH hon' hq, hH⟩
  · rw [Option.map_eq_some_iff] at h
    obtain ⟨r, hr, rfl⟩ := h
    obtain ⟨h1, h2, h3⟩ := insertScan_spec hr
    have hon' : ∀ f ∈ s.line.insertIdx pos { Entry.new seg with enter := true, exit := false }, E.On y f.seg := by
      intro f hf
      rcases (List.mem_insertIdx h1).1 hf with rfl | hf
      · exact ho
      · exact hon f hf
    refine ⟨rfl, by dsimp only; rw [h2]; exact hon', h3.live hK hH hon' hq, hH⟩

theorem handleAll_enter_sound (hK : E.Comparable) {y : K} (l : List (K × Nat)) : ∀ {s s' : State K}, Sound E y s →
    (∀ p ∈ l, p.2 ∈ E.segs ∧ p.1 = E.startY p.2 ∧ E.startY p.2 ≤ E.endY p.2) → handleAll (handleEnter E) y l s = some s' → Sound E y s' := by
  induction l with
  | nil =>
    intro s s' hg _ he
    simp only [handleAll, Option.some.injEq] at he
    subst he
    exact hg
  | cons p l ih =>
    intro s s' hg hl he
    simp only [handleAll] at he
    split_ifs at he with h1
    split at he
    · simp at he
    rename_i s1 hs1
    obtain ⟨g1, g2, g3⟩ := hl p (by simp)
    exact ih (handleEnter_sound hK hg g1 (by rw [← g2]; exact h1) g3 hs1) (fun q hq => hl q (List.mem_cons_of_mem _ hq)) he

theorem handleExit_sound (hK : E.Comparable) {y : K} {s s' : State K} {seg : Nat} (hg : Sound E y s) (h : handleExit E s seg = some s') : Sound E y s' := by
  obtain ⟨hy, hon, hq, hH⟩ := hg
  unfold handleExit at h
  split at h
  · simp at h
  rename_i pos hpos
  split at h
  · simp at h
  rename_i e he
  by_cases ho : e.oldSeg = some seg
  · rw [if_pos ho] at h
    simp only [Option.some.injEq] at h
    subst h
    exact ⟨hy, hon, hq, hH⟩
  rw [if_neg ho] at h
  dsimp only at h
  rw [Option.map_eq_some_iff] at h
  obtain ⟨q', hq', rfl⟩ := h
  rw [hy] at hq'
  have hon' : ∀ f ∈ s.line.set pos { e with exit := true }, E.On y f.seg := by
    intro f hf
    rcases List.mem_or_eq_of_mem_set hf with hf | rfl
    · exact hon f hf
    · exact hon e (List.mem_of_getElem? he)
  exact ⟨hy, hon', (scanForRemoval_grows hq').live hK hH hon' hq, hH⟩

theorem handleAll_exit_sound (hK : E.Comparable) {y : K} (l : List (K × Nat)) : ∀ {s s' : State K}, Sound E y s →
    handleAll (handleExit E) y l s = some s' → Sound E y s' := by
  induction l with
  | nil =>
    intro s s' hg he
    simp only [handleAll, Option.some.injEq] at he
    subst he
    exact hg
  | cons p l ih =>
    intro s s' hg he
    simp only [handleAll] at he
    split_ifs at he with h1
    split at he
    · simp at he
    rename_i s1 hs1
    exact ih (handleExit_sound hK hg hs1) he

/-- Events in the queue between two lines. -/
def Waiting (E : Env K) (yl : WithBot K) (q : List (IEvent K)) : Prop := ∀ ev ∈ q, ∃ y0 : K, (y0 : WithBot K) ≤ yl ∧ Legit E y0 ev

theorem Between.next {yl : WithBot K} {s : State K} (hb : Between E yl s) (hs : E.Sched) {y : K} (hy : nextY E s = some y) :
    yl < y ∧ ∀ x ∈ newSegs s.line, E.On y x := by
  obtain ⟨n1, n2, n3, n4⟩ := nextY_some hy
  have hlt : yl < y := by
    rcases n1 with ⟨p, h1, h2⟩ | ⟨p, h1, h2⟩ | ⟨e, h1, h2⟩
    · rw [← h2]
      by_contra hc
      have := (hb.enter _ p h1).2 (not_lt.1 hc)
      omega
    · rw [← h2]
      by_contra hc
      have := (hb.exit _ p h1).2 (not_lt.1 hc)
      omega
    · rw [← h2]
      exact hb.later e (List.mem_of_mem_head? h1)
  refine ⟨hlt, ?_⟩
  intro x hx
  obtain ⟨h1, h2, h3, h4⟩ := (hb.mem x).1 hx
  refine On.of_mem hs h1 h2 (WithBot.coe_le_coe.1 (h3.trans hlt.le)) ?_
  obtain ⟨p, hp, rfl⟩ := List.mem_map.1 ((hs.exit_mem x).2 ⟨h1, h2⟩)
  have := hb.exit.head hs.exit_sorted n3 hp (by rw [hs.exit_y p hp]; exact h4)
  rwa [hs.exit_y p hp] at this

theorem nextY_heights {yl : WithBot K} {s : State K} (hw : Waiting E yl s.ints) {y : K} (hy : nextY E s = some y) : y ∈ E.heights := by
  obtain ⟨n1, n2, n3, n4⟩ := nextY_some hy
  unfold Env.heights
  rcases n1 with ⟨p, h1, h2⟩ | ⟨p, h1, h2⟩ | ⟨e, h1, h2⟩
  · rw [← h2]
    exact List.mem_append_left _ (List.mem_append_left _ (List.mem_map_of_mem (List.mem_of_getElem? h1)))
  · rw [← h2]
    exact List.mem_append_left _ (List.mem_append_right _ (List.mem_map_of_mem (List.mem_of_getElem? h1)))
  · rw [← h2]
    obtain ⟨_, _, h3⟩ := hw e (List.mem_of_mem_head? h1)
    exact h3.height

theorem beforeInts_live (hs : E.Sched) (hK : E.Comparable) {yl : WithBot K} {s w : State K} (hb : Between E yl s) (hw : Waiting E yl s.ints)
    {y : K} (hy : nextY E s = some y) (h : beforeInts E s = some w) : Live E y w.ints := by
  obtain ⟨hlt, hon⟩ := hb.next hs hy
  unfold beforeInts at h
  rw [hy] at h
  dsimp only at h
  split at h
  · simp at h
  rename_i s1 hs1
  obtain ⟨a1, a2, a3, a4, a5, a6, a7, a8⟩ := advance_spec hb.done hs1
  split at h
  · simp at h
  rename_i s2 hs2
  have h1 : Sound E y { s1 with nextEnter := s1.nextEnter + (atHeight y E.entrances s1.nextEnter).length } := by
    refine ⟨a1, ?_, ?_, nextY_heights hw hy⟩
    · intro e he
      change e ∈ s1.line at he
      rw [a2] at he
      obtain ⟨x, hx, rfl⟩ := List.mem_map.1 he
      exact hon x hx
    · intro ev hev
      change ev ∈ s1.ints at hev
      rw [a5] at hev
      obtain ⟨y0, k1, k2⟩ := hw ev hev
      exact k2.later (WithBot.coe_le_coe.1 (k1.trans hlt.le))
  have h2 := handleAll_enter_sound hK _ h1 (by
    intro p hp
    have hp' : p ∈ E.entrances := ((List.takeWhile_prefix _).sublist.trans (List.drop_sublist _ _)).subset hp
    have : p.2 ∈ E.segs := List.mem_map_of_mem hp'
    exact ⟨this, hs.enter_y p hp', hs.down _ this⟩) hs2
  exact (handleAll_exit_sound hK _ (s := { s2 with nextExit := s2.nextExit + (atHeight y E.exits s2.nextExit).length }) ⟨h2.y_eq, h2.on, h2.live, h2.height⟩ h).live

end Verif.Sweep
