import Verif.Sweep.TotalLine

/-!
# The sweep does not panic: the events of a range
-/

namespace Verif.Sweep
open Verif.Curve Verif.Range Verif.Topo
set_option linter.unusedSectionVars false

variable {K : Type} [LinearOrder K] {E : Env K}

theorem fillOld_total {start : Nat} (es : List Entry) : ∀ {buf : List Entry}, (∀ e ∈ es, ∃ o, e.oldIdx = some o ∧ start ≤ o ∧ o - start < buf.length) →
    ∃ old, fillOld start es buf = some old := by
  induction es with
  | nil => intro buf _; exact ⟨_, rfl⟩
  | cons e es ih =>
    intro buf h
    obtain ⟨o, h1, h2, h3⟩ := h e (by simp)
    simp only [fillOld, h1]
    rw [if_pos ⟨h2, h3⟩]
    refine ih ?_
    intro f hf
    rw [List.length_set]
    exact h f (List.mem_cons_of_mem _ hf)

theorem newPass_total {y : K} {start : Nat} (ps : List (Entry × K × K)) : ∀ {idx : Nat} {evs : List (OutputEvent K)} {m : K},
    (∀ p ∈ ps, ∃ o ev, p.1.oldIdx = some o ∧ start ≤ o ∧ evs[o - start]? = some ev ∧ ev.segIdx = p.1.oldSegId) →
    ∃ r, newPass E y start ps idx evs m = some r := by
  induction ps with
  | nil => intro idx evs m _; exact ⟨_, rfl⟩
  | cons p ps ih =>
    intro idx evs m h
    obtain ⟨e, lo, hi⟩ := p
    obtain ⟨o, ev, h1, h2, h3, h4⟩ := h _ List.mem_cons_self
    dsimp only at h1 h4
    simp only [newPass, h1]
    rw [if_neg (by omega), h3]
    dsimp only
    rw [if_pos h4]
    refine ih ?_
    intro p hp
    obtain ⟨o', ev', k1, k2, k3, k4⟩ := h p (List.mem_cons_of_mem _ hp)
    have key : ∀ x : OutputEvent K, x.segIdx = ev.segIdx → ∃ ev2, (evs.set (o - start) x)[o' - start]? = some ev2 ∧ ev2.segIdx = p.1.oldSegId := by
      intro x hx
      rw [List.getElem?_set]
      by_cases he : o - start = o' - start
      · rw [if_pos he, if_pos (List.getElem?_eq_some_iff.1 h3).1]
        refine ⟨x, rfl, ?_⟩
        rw [← he, h3, Option.some.injEq] at k3
        rw [hx, k3, k4]
      · rw [if_neg he]
        exact ⟨ev', k3, k4⟩
    obtain ⟨ev2, g1, g2⟩ := key { ev with sweepIdx := some (start + idx), x1 := min (max (max (if lo ≤ ev.x0 ∧ ev.x0 ≤ hi then ev.x0 else E.atY e.seg y) lo) m) hi } rfl
    refine ⟨o', ev2, k1, k2, ?_, g2⟩
    by_cases hold : e.oldSeg.isSome = true
    · rw [if_pos hold, List.getElem?_append_left (List.getElem?_eq_some_iff.1 g1).1]; exact g1
    · rw [if_neg hold]; exact g1

/-- The events of a range are computed without a panic. -/
theorem nextRange_total {S0 : List Nat} {M L : List Entry} {s : State K} (hF : Finished E S0 M L s) (hP : Placed s) {c : CI} (hc : c ∈ s.chg) (buf : List Entry) :
    ∃ r, nextRange E s buf c = some r := by
  have hb := hF.chg.bound c hc
  have hlenM : (slice M c).length = c.stop - c.start := by
    apply slice_length
    have := hF.move.len
    have := hF.chg.same.len
    omega
  have hblank : ∀ e ∈ slice M c, e.oldIdx = none := by
    intro e he
    obtain ⟨i, _, _, h3⟩ := mem_slice.1 he
    exact (hF.blank e (List.mem_of_getElem? h3)).2
  unfold nextRange
  by_cases hs : c.stop - c.start = 1 ∧ c.hz = none
  · rw [if_pos hs]
    have hlt : c.start < s.line.length := by omega
    unfold singleEvents
    rw [List.getElem?_eq_getElem hlt]
    dsimp only
    split <;> exact ⟨_, rfl⟩
  rw [if_neg hs]
  dsimp only
  have hlenp : (slice s.line c).length = c.stop - c.start := slice_length hb.2
  have ho : ∀ f ∈ slice s.line c, f.oldIdx ≠ none := by
    intro f hf
    obtain ⟨i, h1, h2, h3⟩ := mem_slice.1 hf
    exact hP c hc i f h1 h2 h3
  have hp := hF.slice_perm hc ho
  rw [places_blank _ _ hblank] at hp
  obtain ⟨hn, hcore⟩ := slice_nodup ho hp
  have hpl : ∀ e ∈ slice s.line c, ∃ o, e.oldIdx = some o ∧ c.start ≤ o ∧ o - c.start < c.stop - c.start := by
    intro e he
    obtain ⟨i, f, q1, q2, -⟩ := hcore e he
    have := (List.getElem?_eq_some_iff.1 q1).1
    exact ⟨_, q2, by omega, by omega⟩
  obtain ⟨old, hfo⟩ := fillOld_total (start := c.start) (slice s.line c) (buf := resizeBuf buf (c.stop - c.start)) (by rw [resizeBuf_length]; exact hpl)
  change ∃ r, (match fillOld c.start (slice s.line c) (resizeBuf buf (c.stop - c.start)) with | none => none | some old => _) = some r
  rw [hfo]
  dsimp only
  obtain ⟨hol, hop, hoi⟩ := fillOld_perm hfo (by rw [resizeBuf_length, hlenp]) hn
  obtain ⟨xs0, a1, a2, a3, -, a5⟩ := oldPass_spec E s.y (feasible E s.y Entry.oldSegId old) E.negInf (feasible_sorted _ _ _ _)
  rw [a3, zip_fst (fun e x => mainEvent E e x)]
  have hfm : (feasible E s.y Entry.oldSegId old).map Prod.fst = old := feasible_map _ _ _ _
  rw [hfm]
  have a1' : xs0.length = old.length := by
    rw [a1, ← hfm, List.length_map, hfm]
  have hfm2 : (feasible E s.y Entry.seg (slice s.line c)).map Prod.fst = slice s.line c := feasible_map _ _ _ _
  change ∃ r, (match newPass E s.y c.start (feasible E s.y Entry.seg (slice s.line c)) 0 _ E.negInf with | none => none | some evs => _) = some r
  obtain ⟨r, hr⟩ := newPass_total (E := E) (y := s.y) (start := c.start) (feasible E s.y Entry.seg (slice s.line c)) (idx := 0)
    (evs := (old.zip xs0).map fun p => mainEvent E p.1 p.2) (m := E.negInf) (by
      intro p hp'
      have hm : p.1 ∈ slice s.line c := by rw [← hfm2]; exact List.mem_map_of_mem hp'
      obtain ⟨o, h1, h2, h3⟩ := hpl _ hm
      have hlt : o - c.start < old.length := by omega
      have hlt' : o - c.start < xs0.length := by omega
      refine ⟨o, mainEvent E old[o - c.start] xs0[o - c.start], h1, h2, ?_, ?_⟩
      · rw [List.getElem?_map]
        have : (old.zip xs0)[o - c.start]? = some (old[o - c.start], xs0[o - c.start]) := by
          rw [List.getElem?_zip_eq_some]
          exact ⟨List.getElem?_eq_getElem _, List.getElem?_eq_getElem _⟩
        rw [this]; rfl
      · have h4 := hoi (o - c.start) _ (List.getElem?_eq_getElem hlt)
        have h5 : old[o - c.start] ∈ slice s.line c := hop.mem_iff.1 (List.getElem_mem hlt)
        have h6 : old[o - c.start].oldIdx = p.1.oldIdx := by rw [h4, h1]; congr 1; omega
        have h7 : old[o - c.start] = p.1 := List.inj_on_of_nodup_map hn h5 hm h6
        rw [h7]; rfl)
  rw [hr]
  exact ⟨_, rfl⟩

end Verif.Sweep
