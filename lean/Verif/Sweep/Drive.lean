import Verif.Sweep.Balance
import Verif.Scan.Sweep

/-! The driver: the ranges of the sweep are legal steps of the topology. -/

namespace Verif.Sweep
open Verif.Curve Verif.Range Verif.Topo Verif.Scan
set_option linter.unusedSectionVars false

variable {K : Type} [LinearOrder K] {W : Type} [AddCommGroup W]
variable {E : Env K} {single : Nat → Bool → W}

section
variable {S0 : List Nat} {M L : List Entry} {s : State K} {S : SState K W}

/-- Places outside of the changed intervals did not change. -/
theorem Finished.uncovered (hF : Finished E S0 M L s) {i : Nat} (hi : ¬ Covered s.chg i) {e : Entry} (he : s.line[i]? = some e) :
    ∃ f, M[i]? = some f ∧ e.core = f.core ∧ e.inCh = false ∧ e.enter = false ∧ e.exit = false ∧ e.oldSeg = none := by
  have hnm : ¬ (e.inCh = true ∨ e.oldIdx ≠ none) := fun h => hi (hF.chg.marked i e he h)
  push Not at hnm
  have hsnp : i ∉ s.snp := fun h => hi (hF.chg.placed i h)
  have hlen : s.line.length = M.length := by
    have := hF.chg.same.len
    have := hF.move.len
    omega
  have hlt := (List.getElem?_eq_some_iff.1 he).1
  obtain ⟨g, hg⟩ := hF.chg.same.get he
  have hfl : ¬ (e.enter = true ∨ e.exit = true) := by
    intro h
    obtain ⟨_, c2, c3, _⟩ := hF.chg.same.core hg he
    exact hsnp (hF.move.flags i g hg (by rw [← c2, ← c3]; exact h))
  push Not at hfl
  simp only [Bool.not_eq_true] at hfl hnm
  have hold : e.oldSeg = none := by
    rcases hF.kind (List.mem_of_getElem? he) with ⟨k1, k2, k3⟩ | ⟨k1, k2, k3, k4⟩ | ⟨o, k1, k2, k3, k4, k5, k6, k7, k8⟩ | ⟨k1, k2, k3, k4⟩
    · exact k3
    · exact k3
    · rw [hfl.1] at k1; simp at k1
    · exact k3
  have hp := places_slice hF.move (c := ⟨i, i + 1, none⟩) (Nat.le_succ i) (by have h' := hF.chg.same.len; show i + 1 ≤ L.length; omega)
    (.inl hsnp) (.inr (by
      intro b hb
      have : b = i := by
        change b + 1 = i + 1 at hb
        omega
      rw [this]; exact hsnp))
  have sl : ∀ (l : List Entry) (a : Entry), l[i]? = some a → slice l ⟨i, i + 1, none⟩ = [a] := by
    intro l a ha
    apply List.ext_getElem?
    intro k
    by_cases hk : k = 0
    · subst hk
      rw [slice_get (by show i + 0 < i + 1; omega)]
      show l[i + 0]? = _
      rw [Nat.add_zero, ha]; rfl
    · have := (List.getElem?_eq_some_iff.1 ha).1
      rw [List.getElem?_eq_none (by rw [slice_length (by show i + 1 ≤ _; omega)]; show i + 1 - i ≤ k; omega), List.getElem?_eq_none (by simp; omega)]
  have hM : M[i]? = some (M[i]'(by omega)) := List.getElem?_eq_getElem (by omega)
  rw [sl L g hg, sl M _ hM] at hp
  have h1 := hp.map fun p : Nat × Entry => p.2.core
  have h2 : g.core = (M[i]'(by omega)).core := by
    have := List.perm_singleton.1 h1
    simpa [places, Entry.strip, Entry.core] using this
  have h3 := (hF.chg.same.place i g e hg he).2.1
  exact ⟨_, hM, by rw [h3, h2], hnm.1, hfl.1, hfl.2, hold⟩

theorem Finished.gap (hF : Finished E S0 M L s) {p q : Nat} (hq : q ≤ s.line.length) (hg : ∀ i, p ≤ i → i < q → ¬ Covered s.chg i) :
    newSegs (slice s.line ⟨p, q, none⟩) = oldSegs (slice M ⟨p, q, none⟩) ∧ newSegs (slice s.line ⟨p, q, none⟩) = (slice s.line ⟨p, q, none⟩).map Entry.seg := by
  have hlen : s.line.length = M.length := by
    have := hF.chg.same.len
    have := hF.move.len
    omega
  have h1 : (slice s.line ⟨p, q, none⟩).map Entry.core = (slice M ⟨p, q, none⟩).map Entry.core := by
    apply List.ext_getElem?
    intro k
    rw [List.getElem?_map, List.getElem?_map]
    by_cases hk : p + k < q
    · rw [slice_get (c := ⟨p, q, none⟩) hk, slice_get (c := ⟨p, q, none⟩) hk]
      show s.line[p + k]?.map _ = M[p + k]?.map _
      have he : s.line[p + k]? = some (s.line[p + k]'(by omega)) := List.getElem?_eq_getElem (by omega)
      obtain ⟨f, f1, f2, _⟩ := hF.uncovered (hg (p + k) (by omega) hk) he
      rw [he, f1, Option.map_some, Option.map_some, f2]
    · rw [List.getElem?_eq_none (by rw [slice_length (c := ⟨p, q, none⟩) hq]; show q - p ≤ k; omega),
        List.getElem?_eq_none (by rw [slice_length (c := ⟨p, q, none⟩) (by show q ≤ M.length; omega)]; show q - p ≤ k; omega)]
  have h2 : ∀ e ∈ slice s.line ⟨p, q, none⟩, e.newOf = some e.seg ∧ e.oldOf = some e.seg := by
    intro e he
    obtain ⟨i, i1, i2, i3⟩ := mem_slice.1 he
    obtain ⟨f, f1, f2, f3, f4, f5, f6⟩ := hF.uncovered (hg i i1 i2) i3
    unfold Entry.newOf Entry.oldOf Entry.willReallyExit
    simp [f4, f5]
  have h3 : newSegs (slice s.line ⟨p, q, none⟩) = (slice s.line ⟨p, q, none⟩).map Entry.seg := by
    unfold newSegs
    rw [← List.filterMap_eq_map]
    exact List.filterMap_congr fun e he => (h2 e he).1
  refine ⟨?_, h3⟩
  rw [h3, ← oldSegs_core (slice M _), ← h1, oldSegs_core]
  unfold oldSegs
  rw [← List.filterMap_eq_map]
  exact (List.filterMap_congr fun e he => (h2 e he).2).symm

theorem take_gap (l : List Entry) {p q : Nat} (h : p ≤ q) : l.take q = l.take p ++ slice l ⟨p, q, none⟩ := take_slice l ⟨p, q, none⟩ h
theorem drop_gap (l : List Entry) {p q : Nat} {hz : Option (Nat × Nat)} (h : p ≤ q) : l.drop p = slice l ⟨p, q, hz⟩ ++ l.drop q := by
  unfold slice
  show _ = (l.drop p).take (q - p) ++ _
  conv_lhs => rw [← List.take_append_drop (q - p) (l.drop p), List.drop_drop]
  congr 2; omega

theorem not_covered_before (hF : Finished E S0 M L s) {c : CI} (hc : c ∈ s.chg) {i : Nat} (h : i + 1 = c.start) : ¬ Covered s.chg i := by
  rintro ⟨d, hd, h1, h2⟩
  have := hF.chg.bound c hc
  rcases sep_or hF.chg.sep hc hd with rfl | h3 | h3 <;> omega

theorem not_covered_after (hF : Finished E S0 M L s) {c : CI} (hc : c ∈ s.chg) : ¬ Covered s.chg c.stop := by
  rintro ⟨d, hd, h1, h2⟩
  have := hF.chg.bound c hc
  have := hF.chg.bound d hd
  rcases sep_or hF.chg.sep hc hd with rfl | h3 | h3 <;> omega

/-- The neighbour to the west. -/
theorem Finished.west (hF : Finished E S0 M L s) {c : CI} (hc : c ∈ s.chg) :
    (if c.start = 0 then none else s.line[c.start - 1]?.map Entry.seg) = (newSegs (s.line.take c.start)).getLast? := by
  have hb := hF.chg.bound c hc
  by_cases h0 : c.start = 0
  · rw [if_pos h0, h0]; rfl
  · rw [if_neg h0]
    have he : s.line[c.start - 1]? = some (s.line[c.start - 1]'(by omega)) := List.getElem?_eq_getElem (by omega)
    have hg := hF.gap (p := c.start - 1) (q := c.start) (by omega) (by
      intro i i1 i2
      exact not_covered_before hF hc (by omega))
    rw [take_gap s.line (p := c.start - 1) (q := c.start) (by omega), newSegs_append, hg.2]
    have : slice s.line ⟨c.start - 1, c.start, none⟩ = [s.line[c.start - 1]'(by omega)] := by
      unfold slice
      show (s.line.drop (c.start - 1)).take (c.start - (c.start - 1)) = _
      have h1 : c.start - (c.start - 1) = 1 := by omega
      rw [h1, List.drop_eq_getElem_cons (by omega)]
      rfl
    rw [this, he]
    simp

/-- The neighbour to the east. -/
theorem Finished.east (hF : Finished E S0 M L s) {c : CI} (hc : c ∈ s.chg) :
    s.line[c.stop]?.map Entry.seg = (oldSegs (M.drop c.stop)).head? ∧ (s.line[c.stop]?.map Entry.inCh).getD false = false := by
  have hb := hF.chg.bound c hc
  have hlen : s.line.length = M.length := by
    have := hF.chg.same.len
    have := hF.move.len
    omega
  cases he : s.line[c.stop]? with
  | none =>
    have := List.getElem?_eq_none_iff.1 he
    rw [List.drop_eq_nil_of_le (by omega)]
    exact ⟨rfl, rfl⟩
  | some e =>
    obtain ⟨f, f1, f2, f3, f4, f5, f6⟩ := hF.uncovered (not_covered_after hF hc) he
    refine ⟨?_, by simpa using f3⟩
    obtain ⟨hlt, hf⟩ := List.getElem?_eq_some_iff.1 f1
    simp only [Entry.core, Entry.mk.injEq] at f2
    rw [List.drop_eq_getElem_cons hlt, hf]
    unfold oldSegs
    have : f.oldOf = some e.seg := by
      unfold Entry.oldOf
      rw [← f2.2.2.1, f4]
      simp [f2.1]
    rw [List.filterMap_cons_some this]
    rfl

theorem rangeSegs_disjoint (hF : Finished E S0 M L s) {c d : CI} (hc : c ∈ s.chg) (hd : d ∈ s.chg) {x : Nat} (h1 : x ∈ rangeSegs s c)
    (h2 : x ∈ rangeSegs s d) : c = d := by
  have hn : (lineIds s.line).Nodup := hF.ids_perm.nodup_iff.2 hF.nodup
  have hdis : ∀ c d : CI, x ∈ lineIds (slice s.line c) → x ∈ horizOf s d → False := by
    intro c d h1 h2
    have q1 := (hF.mem x).1 (hF.ids_perm.mem_iff.1 ((sublist_flatMap _ (slice_sublist _ _)).subset h1))
    have q2 := (hF.horiz x).1 ((horizOf_sublist _ _).subset h2)
    rw [q2.2.1] at q1
    simp at q1
  unfold rangeSegs at h1 h2
  rcases List.mem_append.1 h1 with h1 | h1 <;> rcases List.mem_append.1 h2 with h2 | h2
  · obtain ⟨j, e, q1, q2, q3, q4⟩ := mem_lineIds_slice.1 h1
    obtain ⟨j', e', q1', q2', q3', q4'⟩ := mem_lineIds_slice.1 h2
    have hee : e = e' := ids_unique hn (List.mem_of_getElem? q3) (List.mem_of_getElem? q3') q4 q4'
    subst hee
    have hjj : j = j' := by
      have hsn : (s.line.map Entry.seg).Nodup := hn.sublist (segs_sublist _)
      have hj := (List.getElem?_eq_some_iff.1 q3).1
      have hj' := (List.getElem?_eq_some_iff.1 q3').1
      have e1 : (s.line.map Entry.seg)[j]? = some e.seg := by rw [List.getElem?_map, q3]; rfl
      have e2 : (s.line.map Entry.seg)[j']? = some e.seg := by rw [List.getElem?_map, q3']; rfl
      exact (List.getElem?_inj (by simpa using hj) hsn).1 (by rw [e1, e2])
    subst hjj
    exact hF.chg.unique hc hd q1 q2 q1' q2'
  · exact (hdis _ _ h1 h2).elim
  · exact (hdis _ _ h2 h1).elim
  · obtain ⟨a, b, k, q1, q2, q3, q4⟩ := mem_horizOf.1 h1
    obtain ⟨a', b', k', q1', q2', q3', q4'⟩ := mem_horizOf.1 h2
    have hk := (List.getElem?_eq_some_iff.1 q4).1
    have hkk : k = k' := (List.getElem?_inj hk hF.horizNodup).1 (by rw [q4, q4'])
    subst hkk
    exact hF.chg.hz_unique hc hd q1 q1' q2 q3 q2' q3'

/-- Every place with a segment that starts or ends, and every horizontal segment, is in some range. -/
theorem Finished.covers (hF : Finished E S0 M L s) (hs : E.Sched) {x : K} {a : Nat} (ha : a ∈ E.segs) (ht : Touches E x s.y a) :
    ∃ c ∈ s.chg, a ∈ rangeSegs s c := by
  unfold rangeSegs
  rcases hF.mem_all hs ha ht with ⟨hh, hz⟩ | ⟨hh, j, e, he, hae⟩
  · obtain ⟨k, hk⟩ := List.mem_iff_getElem?.1 hz
    obtain ⟨c, hc, a1, b1, r1, r2, r3, _⟩ := hF.chg.hzSpan k a hk
    exact ⟨c, hc, List.mem_append_right _ (mem_horizOf.2 ⟨a1, b1, k, r1, r2, r3, hk⟩)⟩
  · by_cases hcov : Covered s.chg j
    · obtain ⟨c, hc, h1, h2⟩ := hcov
      exact ⟨c, hc, List.mem_append_left _ (mem_lineIds_slice.2 ⟨j, e, h1, h2, he, hae⟩)⟩
    · exfalso
      obtain ⟨f, f1, f2, f3, f4, f5, f6⟩ := hF.uncovered hcov he
      unfold Entry.ids at hae
      rw [f6] at hae
      have : a = e.seg := by simpa using hae
      subst this
      obtain ⟨e1, e2⟩ := hF.entry_seg (List.mem_of_getElem? he)
      rcases ht with h | h
      · exact absurd (e1 f4) (by rw [h.2]; exact lt_irrefl _)
      · exact absurd (e2 (.inl f5)) (by rw [h.2]; exact lt_irrefl _)

/-- `F` comes after `S`, and what was done in between was done at heights greater than `z`. -/
def Beyond (single : Nat → Bool → W) (orient : Nat → Bool) (z : K) (S F : SState K W) : Prop :=
  S = F ∨ ∃ S', Step single orient S S' ∧ (z : WithBot K) < S'.yl ∧ Steps single orient S' F

theorem Beyond.step {orient : Nat → Bool} {z : K} {S F G : SState K W} (h : Beyond single orient z S F) (hs : Step single orient F G) (hz : (z : WithBot K) < G.yl) :
    Beyond single orient z S G := by
  rcases h with rfl | ⟨S', h1, h2, h3⟩
  · exact .inr ⟨G, hs, hz, .refl _⟩
  · exact .inr ⟨S', h1, h2, .tail _ _ _ h3 hs⟩

theorem stepsTrans {orient : Nat → Bool} {u v w : SState K W} (h1 : Steps single orient u v) (h2 : Steps single orient v w) : Steps single orient u w := by
  induction h2 with
  | refl => exact h1
  | tail a b _ h ih => exact .tail _ _ _ ih h

theorem Beyond.trans {orient : Nat → Bool} {z : K} {S F G : SState K W} (h : Beyond single orient z S F) (h' : Beyond single orient z F G) :
    Beyond single orient z S G := by
  rcases h' with rfl | ⟨F', h4, h5, h6⟩
  · exact h
  rcases h with rfl | ⟨S', h1, h2, h3⟩
  · exact .inr ⟨F', h4, h5, h6⟩
  · exact .inr ⟨S', h1, h2, stepsTrans h3 (stepsTrans (.tail _ _ _ (.refl _) h4) h6)⟩

/-- A segment is at its start within its thickened bounds. -/
def Env.Boxed (E : Env K) : Prop := ∀ x ∈ E.segs, E.isHorizontal x = false →
  E.lower2 x (E.startY x) ≤ E.startX x ∧ E.startX x ≤ E.upper2 x (E.startY x)

/-- Where segments start between two neighbours that go on, the neighbours are apart. -/
theorem Finished.spaced (hF : Finished E S0 M L s) (hbox : E.Boxed) {c : CI} (hc : c ∈ s.chg) {evs : List (OutputEvent K)} {T To : List (Tag K)}
    (hT : Tagged E s M c evs T To) (hold : oldSegs (slice M c) = []) (hne : newSegs (slice s.line c) ≠ []) {a b : Nat}
    (ha : (newSegs (s.line.take c.start)).getLast? = some a) (hb : (oldSegs (M.drop c.stop)).head? = some b) : E.upper2 a s.y < E.lower2 b s.y := by
  have hbd := hF.chg.bound c hc
  rw [← hF.west hc] at ha
  rw [← (hF.east hc).1] at hb
  have h0 : c.start ≠ 0 := by rintro h0; rw [if_pos h0] at ha; simp at ha
  rw [if_neg h0] at ha
  obtain ⟨fa, fa1, rfl⟩ := Option.map_eq_some_iff.1 ha
  obtain ⟨fb, fb1, rfl⟩ := Option.map_eq_some_iff.1 hb
  have hlen := hF.chg.same.len
  have hblt := (List.getElem?_eq_some_iff.1 fb1).1
  -- every entry of the interval starts here
  have key : ∀ i e, c.start ≤ i → i < c.stop → s.line[i]? = some e → e.enter = true ∧ e.oldSeg = none ∧ E.lower2 e.seg s.y ≤ E.startX e.seg ∧
      E.startX e.seg ≤ E.upper2 e.seg s.y ∧ i ∈ s.snp := by
    intro i e h1 h2 he
    have hmem : e ∈ slice s.line c := mem_slice.2 ⟨i, h1, h2, he⟩
    have hline : e ∈ s.line := List.mem_of_getElem? he
    have hno : e.oldOf = none := by
      rw [← hT.entries] at hmem
      obtain ⟨t, ht, rfl⟩ := List.mem_map.1 hmem
      have : t.e.core ∈ (slice M c).map Entry.core := by
        rw [← hT.old]
        exact List.mem_map.2 ⟨t, hT.perm.mem_iff.2 ht, rfl⟩
      obtain ⟨f, hf, hfe⟩ := List.mem_map.1 this
      cases hof : f.oldOf with
      | none => exact hof ▸ (show t.e.core.oldOf = f.core.oldOf by rw [hfe])
      | some o =>
        have : o ∈ oldSegs (slice M c) := mem_oldSegs.2 ⟨f, hf, hof⟩
        rw [hold] at this; simp at this
    have hent : e.enter = true ∧ e.oldSeg = none ∧ E.startY e.seg = s.y := by
      cases hF.kind hline with
      | stays k1 k2 k3 => simp [Entry.oldOf, k1] at hno
      | enters k1 k2 k3 k4 => exact ⟨k1, k3, k4⟩
      | continues o k1 k2 k3 => simp [Entry.oldOf, k1, k3] at hno
      | exits k1 k2 k3 => simp [Entry.oldOf, k1] at hno
    have hin := (hF.mem e.seg).1 (hF.ids_perm.mem_iff.1 (mem_lineIds.2 ⟨e, hline, by simp [Entry.ids]⟩))
    have hbx := hbox e.seg hin.1 hin.2.1
    rw [hent.2.2] at hbx
    refine ⟨hent.1, hent.2.1, hbx.1, hbx.2, ?_⟩
    obtain ⟨g, hg⟩ := hF.chg.same.get he
    exact hF.move.flags i g hg (.inl ((hF.chg.same.core hg he).2.1 ▸ hent.1))
  have hlt : c.start < c.stop := by
    by_contra h
    apply hne
    have : slice s.line c = [] := by unfold slice; rw [show c.stop - c.start = 0 by omega]; rfl
    rw [this]; rfl
  -- the leftmost and the rightmost of them
  have left : ∀ i e, c.start ≤ i → i < c.stop → s.line[i]? = some e → ∃ k f, c.start ≤ k + 1 ∧ k < i ∧ s.line[k]? = some f ∧ E.upper2 f.seg s.y < E.startX e.seg := by
    intro i e h1 h2 he
    obtain ⟨g, hg⟩ := hF.chg.same.get he
    obtain ⟨k1, k2, k3, k4, k5⟩ := key i e h1 h2 he
    obtain ⟨q1, q2, q3, q4⟩ := hF.chg.same.core hg he
    by_contra hcon
    push Not at hcon
    obtain ⟨d, hd, d1, d2, d3, d4⟩ := hF.chg.reach i k5 g hg (q4 ▸ k2) (.inl (q2 ▸ k1)) (c.start - 1) (.inl ⟨by omega, fun k f k1' k2' hf => by
      have hk := (List.getElem?_eq_some_iff.1 hf).1
      obtain ⟨f', hf'⟩ : ∃ f', s.line[k]? = some f' := ⟨_, List.getElem?_eq_getElem (show k < s.line.length by omega)⟩
      have := hcon k f' (by omega) k2' hf'
      rw [(hF.chg.same.core hf hf').1] at this
      unfold endPos
      rw [← q2, k1, if_pos rfl, ← q1]
      exact this⟩)
    exact not_covered_before hF hc (i := c.start - 1) (by omega) ⟨d, hd, d3, d4⟩
  have right : ∀ i e, c.start ≤ i → i < c.stop → s.line[i]? = some e → ∃ k f, i < k ∧ k ≤ c.stop ∧ s.line[k]? = some f ∧ E.startX e.seg < E.lower2 f.seg s.y := by
    intro i e h1 h2 he
    obtain ⟨g, hg⟩ := hF.chg.same.get he
    obtain ⟨k1, k2, k3, k4, k5⟩ := key i e h1 h2 he
    obtain ⟨q1, q2, q3, q4⟩ := hF.chg.same.core hg he
    by_contra hcon
    push Not at hcon
    obtain ⟨d, hd, d1, d2, d3, d4⟩ := hF.chg.reach i k5 g hg (q4 ▸ k2) (.inl (q2 ▸ k1)) c.stop (.inr ⟨h2, by omega, fun k f k1' k2' hf => by
      have hk := (List.getElem?_eq_some_iff.1 hf).1
      obtain ⟨f', hf'⟩ : ∃ f', s.line[k]? = some f' := ⟨_, List.getElem?_eq_getElem (show k < s.line.length by omega)⟩
      have := hcon k f' k1' k2' hf'
      rw [(hF.chg.same.core hf hf').1] at this
      unfold endPos
      rw [← q2, k1, if_pos rfl, ← q1]
      exact this⟩)
    exact not_covered_after hF hc ⟨d, hd, d3, d4⟩
  -- going on to the left
  have goLeft : ∀ n i e, i = c.start + n → i < c.stop → s.line[i]? = some e → E.upper2 fa.seg s.y < E.startX e.seg := by
    intro n
    induction n using Nat.strong_induction_on with
    | _ n ih =>
      intro i e hi h2 he
      obtain ⟨k, f, k1, k2, k3, k4⟩ := left i e (by omega) h2 he
      rcases Nat.eq_or_lt_of_le k1 with hk | hk
      · rw [hk, Nat.add_sub_cancel, k3] at fa1
        obtain rfl : f = fa := by simpa using fa1
        exact k4
      · have := ih (k - c.start) (by omega) k f (by omega) (by omega) k3
        exact this.trans_le ((key k f (by omega) (by omega) k3).2.2.2.1.trans k4.le)
  have goRight : ∀ n i e, i + n + 1 = c.stop → c.start ≤ i → s.line[i]? = some e → E.startX e.seg < E.lower2 fb.seg s.y := by
    intro n
    induction n using Nat.strong_induction_on with
    | _ n ih =>
      intro i e hi h2 he
      obtain ⟨k, f, k1, k2, k3, k4⟩ := right i e h2 (by omega) he
      rcases Nat.eq_or_lt_of_le k2 with hk | hk
      · rw [hk, fb1] at k3
        obtain rfl : fb = f := by simpa using k3
        exact k4
      · have := ih (c.stop - k - 1) (by omega) k f (by omega) (by omega) k3
        exact k4.trans_le ((key k f (by omega) (by omega) k3).2.2.1.trans this.le)
  obtain ⟨e, he⟩ : ∃ e, s.line[c.start]? = some e := ⟨_, List.getElem?_eq_getElem (show c.start < s.line.length by omega)⟩
  exact (goLeft 0 _ e (by omega) hlt he).trans (goRight (c.stop - c.start - 1) _ e (by omega) le_rfl he)

/-- Steps of the sweep, with what is known about the places where segments start. -/
inductive Trail (E : Env K) (single : Nat → Bool → W) : SState K W → Prop
  | init : Trail E single SState.init
  | range (hist : List (K × OutputEvent K)) (A B : List Nat) (y : K) (evs Eo En : List (OutputEvent K)) (t t' : Topo K W)
      (yl : WithBot K) (done : Nat) :
      Trail E single ⟨hist, A ++ Eo.map OutputEvent.segIdx ++ B, t, yl, done⟩ →
      RangeHyp single E.orient hist A B y evs Eo En B.head? →
      (yl < y ∨ yl = y ∧ done < A.length) →
      processRange single E.orient y evs A.getLast? B.head? false t = some t' →
      (E.Boxed → Eo = [] → En ≠ [] → ∀ a b, A.getLast? = some a → B.head? = some b → E.upper2 a y < E.lower2 b y) →
      Trail E single ⟨hist ++ evs.map fun e => (y, e), A ++ En.map OutputEvent.segIdx ++ B, t', y, A.length + En.length⟩

theorem Trail.steps {F : SState K W} (h : Trail E single F) : Steps single E.orient SState.init F := by
  induction h with
  | init => exact .refl _
  | range hist A B y evs Eo En t t' yl done _ h2 h3 h4 _ ih => exact .tail _ _ _ ih (.range hist A B y evs Eo En t t' yl done h2 h3 h4)

/-- The ranges of the intervals `pre` of the line are done, the last of them ended at `p`. -/
structure LineRun (E : Env K) (single : Nat → Bool → W) (S : SState K W) (M : List Entry) (s : State K) (pre : List CI) (p : Nat) (H : List (K × OutputEvent K)) (t : Topo K W)
    (yl : WithBot K) (done : Nat) : Prop where
  trail : Trail E single ⟨H, newSegs (s.line.take p) ++ oldSegs (M.drop p), t, yl, done⟩
  place : (yl < s.y ∧ p = 0 ∧ pre = []) ∨
    (yl = s.y ∧ done = (newSegs (s.line.take p)).length ∧ (∃ c ∈ pre, c.stop = p) ∧ ∀ c ∈ pre, c.stop ≤ p)
  hist : ∀ q ∈ H, q.1 < s.y ∨ q.1 = s.y ∧ ∃ c ∈ pre, q.2.segIdx ∈ rangeSegs s c
  all : ∀ c ∈ pre, ∀ x ∈ rangeSegs s c, ∃ q ∈ H, q.1 = s.y ∧ q.2.segIdx = x
  ok : ∀ q ∈ H, EvOk E q.1 q.2
  beyond : ∀ z, z < s.y → Beyond single E.orient z S ⟨H, newSegs (s.line.take p) ++ oldSegs (M.drop p), t, yl, done⟩

theorem LineRun.gap {pre cs : List CI} (hF : Finished E S0 M L s) (hchg : s.chg = pre ++ cs) {p : Nat}
    {H : List (K × OutputEvent K)} {t : Topo K W} {yl : WithBot K} {done : Nat} (h : LineRun E single S M s pre p H t yl done) {q : Nat}
    (hq : ∀ c ∈ cs, q ≤ c.start) : ∀ i, p ≤ i → i < q → ¬ Covered s.chg i := by
  rintro i i1 i2 ⟨d, hd, d1, d2⟩
  rw [hchg] at hd
  rcases List.mem_append.1 hd with hd | hd
  · rcases h.place with ⟨_, _, h1⟩ | ⟨_, _, _, h1⟩
    · rw [h1] at hd; simp at hd
    · have := h1 d hd; omega
  · have := hq d hd; omega

theorem LineRun.rangeHyp (hF : Finished E S0 M L s) (hs : E.Sched) (hE : E.Exact) (hpp : E.PP) (hC : E.Contours single)
    (hO : OrdC E s.y (s.line.map Entry.seg)) {pre cs : List CI} {c : CI} (hchg : s.chg = pre ++ c :: cs) {p : Nat}
    {H : List (K × OutputEvent K)} {t : Topo K W} {yl : WithBot K} {done : Nat} (h : LineRun E single S M s pre p H t yl done)
    {buf buf' : List Entry} {evs : List (OutputEvent K)} (hr : nextRange E s buf c = some (buf', evs)) :
    ∃ T To, Tagged E s M c evs T To ∧
      newSegs (s.line.take p) ++ oldSegs (M.drop p) =
        newSegs (s.line.take c.start) ++ (evOld To).map OutputEvent.segIdx ++ oldSegs (M.drop c.stop) ∧
      RangeHyp single E.orient H (newSegs (s.line.take c.start)) (oldSegs (M.drop c.stop)) s.y evs (evOld To) (evNew T)
        (oldSegs (M.drop c.stop)).head? := by
  have hc : c ∈ s.chg := by rw [hchg]; simp
  have hb := hF.chg.bound c hc
  have hsep := hF.chg.sep
  rw [hchg, List.pairwise_append, List.pairwise_cons] at hsep
  have hpre : ∀ d ∈ pre, d.stop < c.start := fun d hd => hsep.2.2 d hd c (by simp)
  have hprem : ∀ d ∈ pre, d ∈ s.chg := fun d hd => by rw [hchg]; simp [hd]
  have hnd : (lineIds s.line).Nodup := hF.ids_perm.nodup_iff.2 hF.nodup
  obtain ⟨T, To, hT⟩ := nextRange_tags hF hE hc hr
  have hev := hT.evOk hF
  have hpc : p ≤ c.start := by
    rcases h.place with ⟨_, h1, _⟩ | ⟨_, _, ⟨d, hd, h1⟩, _⟩
    · omega
    · have := hpre d hd; omega
  have hgapc := h.gap hF hchg (q := c.start) (by
    intro d hd
    rcases List.mem_cons.1 hd with rfl | hd
    · exact le_refl _
    · have := hsep.2.1.1 d hd
      omega)
  have hg := hF.gap (by omega) hgapc
  have hA : newSegs (s.line.take c.start) = newSegs (s.line.take p) ++ newSegs (slice s.line ⟨p, c.start, none⟩) := by
    rw [take_gap s.line hpc, newSegs_append]
  have hline : newSegs (s.line.take p) ++ oldSegs (M.drop p) =
      newSegs (s.line.take c.start) ++ (evOld To).map OutputEvent.segIdx ++ oldSegs (M.drop c.stop) := by
    rw [hT.old_segs hF, hA, hg.1, drop_gap M (hz := none) hpc, drop_gap M (hz := c.hz) hb.1, oldSegs_append, oldSegs_append]
    simp only [List.append_assoc]
  have hcont : ∀ e ∈ evs, e.segIdx ∈ rangeSegs s c := fun e he => (hT.seg_perm hF).mem_iff.1 (List.mem_map_of_mem he)
  have hspec : RangeSpec (contribOf single E.orient) evs (evOld To) (evNew T) :=
    hT.rangeSpec hF _ (hT.balance hF hs hE hpp hC hO hc)
  have holdS : ∀ x ∈ oldSegs M, E.startY x < s.y := by rw [hF.old]; exact hF.above
  have hyp : RangeHyp single E.orient H (newSegs (s.line.take c.start)) (oldSegs (M.drop c.stop)) s.y evs (evOld To) (evNew T)
      (oldSegs (M.drop c.stop)).head? := by
    constructor
    case spec => exact hspec
    case fresh =>
      intro e he hab hin
      have hst := ((hev e he).starts hab).1
      rw [hT.old_segs hF, List.append_assoc] at hin
      rcases List.mem_append.1 hin with hin | hin
      · obtain ⟨f, hf, _, hfe⟩ := mem_newSegs.1 hin
        have hline : f.seg ∈ lineIds s.line := mem_lineIds.2 ⟨f, (List.take_sublist _ _).subset hf, by simp [Entry.ids]⟩
        have hm := (hF.mem _).1 (hF.ids_perm.mem_iff.1 hline)
        have hr := hcont e he
        unfold rangeSegs at hr
        rcases List.mem_append.1 hr with hr | hr
        · have h1 := hnd
          rw [← List.take_append_drop c.start s.line] at h1
          unfold lineIds at h1
          rw [List.flatMap_append, List.nodup_append] at h1
          refine h1.2.2 e.segIdx ?_ e.segIdx ?_ rfl
          · exact List.mem_flatMap.2 ⟨f, hf, by rw [← hfe]; simp [Entry.ids]⟩
          · exact (sublist_flatMap _ (List.take_sublist _ _)).subset hr
        · have := (hF.horiz _).1 ((horizOf_sublist _ _).subset hr)
          rw [← hfe, hm.2.1] at this
          simp at this
      · have hsub : e.segIdx ∈ oldSegs M := by
          rcases List.mem_append.1 hin with hin | hin
          · exact ((slice_sublist _ _).filterMap _).subset hin
          · exact ((List.drop_sublist _ _).filterMap _).subset hin
        exact absurd (holdS _ hsub) (by rw [hst]; exact lt_irrefl _)
    case down =>
      intro q hq
      rcases h.hist q hq with h1 | h1
      · exact h1.le
      · exact h1.1.le
    case once =>
      intro q hq e he hqe
      rcases h.hist q hq with h1 | ⟨_, d, hd, h2⟩
      · exact h1
      · rw [hqe] at h2
        have := rangeSegs_disjoint hF (hprem d hd) hc h2 (hcont e he)
        have := hpre d hd
        subst d
        omega
    case eastIn =>
      intro x hx
      exact List.mem_of_mem_head? hx
  exact ⟨T, To, hT, hline, hyp⟩

theorem LineRun.step (hF : Finished E S0 M L s) (hs : E.Sched) (hE : E.Exact) (hpp : E.PP) (hC : E.Contours single)
    (hO : OrdC E s.y (s.line.map Entry.seg)) {pre cs : List CI} {c : CI} (hchg : s.chg = pre ++ c :: cs) {p : Nat}
    {H : List (K × OutputEvent K)} {t t' : Topo K W} {yl : WithBot K} {done : Nat} (h : LineRun E single S M s pre p H t yl done)
    {buf buf' : List Entry} {evs : List (OutputEvent K)} (hr : nextRange E s buf c = some (buf', evs))
    (hp : processRange single E.orient s.y evs (if c.start = 0 then none else s.line[c.start - 1]?.map Entry.seg)
      (s.line[c.stop]?.map Entry.seg) ((s.line[c.stop]?.map Entry.inCh).getD false) t = some t') :
    ∃ done', LineRun E single S M s (pre ++ [c]) c.stop (H ++ evs.map fun e => (s.y, e)) t' s.y done' := by
  have hc : c ∈ s.chg := by rw [hchg]; simp
  have hb := hF.chg.bound c hc
  have hsep := hF.chg.sep
  rw [hchg, List.pairwise_append, List.pairwise_cons] at hsep
  have hpre : ∀ d ∈ pre, d.stop < c.start := fun d hd => hsep.2.2 d hd c (by simp)
  have hprem : ∀ d ∈ pre, d ∈ s.chg := fun d hd => by rw [hchg]; simp [hd]
  have hnd : (lineIds s.line).Nodup := hF.ids_perm.nodup_iff.2 hF.nodup
  obtain ⟨T, To, hT, hline, hyp⟩ := h.rangeHyp hF hs hE hpp hC hO hchg hr
  have hev := hT.evOk hF
  have hpc : p ≤ c.start := by
    rcases h.place with ⟨_, h1, _⟩ | ⟨_, _, ⟨d, hd, h1⟩, _⟩
    · omega
    · have := hpre d hd; omega
  have hgapc := h.gap hF hchg (q := c.start) (by
    intro d hd
    rcases List.mem_cons.1 hd with rfl | hd
    · exact le_refl _
    · have := hsep.2.1.1 d hd
      omega)
  have hg := hF.gap (by omega) hgapc
  have hA : newSegs (s.line.take c.start) = newSegs (s.line.take p) ++ newSegs (slice s.line ⟨p, c.start, none⟩) := by
    rw [take_gap s.line hpc, newSegs_append]
  have hcont : ∀ e ∈ evs, e.segIdx ∈ rangeSegs s c := fun e he => (hT.seg_perm hF).mem_iff.1 (List.mem_map_of_mem he)
  rw [hF.west hc, (hF.east hc).1, (hF.east hc).2] at hp
  have hlast : yl < s.y ∨ yl = s.y ∧ done < (newSegs (s.line.take c.start)).length := by
    rcases h.place with ⟨h1, _⟩ | ⟨h1, h2, ⟨d, hd, h3⟩, _⟩
    · exact .inl h1
    · right
      refine ⟨h1, ?_⟩
      have := hpre d hd
      rw [hA, List.length_append, h2, hg.2, List.length_map, slice_length (c := ⟨p, c.start, none⟩) (by show c.start ≤ _; omega)]
      show _ < _ + (c.start - p)
      omega
  have st := Step.range H _ _ s.y evs (evOld To) (evNew T) t t' yl done hyp hlast hp
  have hsteps := h.trail
  have hbey := h.beyond
  rw [hline] at hsteps hbey
  have hfin := Trail.range H _ _ s.y evs (evOld To) (evNew T) t t' yl done hsteps hyp hlast hp (fun hbox h1 h2 a b ha hb' =>
    hF.spaced hbox hc hT (by rw [← hT.old_segs hF, h1]; rfl) (by rw [← hT.new_segs hF]; simpa using h2) ha hb')
  have htk : newSegs (s.line.take c.stop) = newSegs (s.line.take c.start) ++ newSegs (slice s.line c) := by
    rw [take_slice s.line c hb.1, newSegs_append]
  have hbey' := fun z (hz : z < s.y) => (hbey z hz).step st (WithBot.coe_lt_coe.2 hz)
  rw [hT.new_segs hF, ← htk] at hfin hbey'
  refine ⟨_, hfin, ?_, ?_, ?_, ?_, hbey'⟩
  · right
    refine ⟨rfl, ?_, ⟨c, by simp, rfl⟩, ?_⟩
    · rw [htk, List.length_append, ← hT.new_segs hF, List.length_map]
    · intro d hd
      rcases List.mem_append.1 hd with hd | hd
      · have := hpre d hd; omega
      · rw [List.mem_singleton] at hd; rw [hd]
  · intro q hq
    rcases List.mem_append.1 hq with hq | hq
    · rcases h.hist q hq with h1 | ⟨h1, d, hd, h2⟩
      · exact .inl h1
      · exact .inr ⟨h1, d, by simp [hd], h2⟩
    · obtain ⟨e, he, rfl⟩ := List.mem_map.1 hq
      exact .inr ⟨rfl, c, by simp, hcont e he⟩
  · intro d hd x hx
    rcases List.mem_append.1 hd with hd | hd
    · obtain ⟨q, q1, q2⟩ := h.all d hd x hx
      exact ⟨q, List.mem_append_left _ q1, q2⟩
    · rw [List.mem_singleton] at hd
      rw [hd] at hx
      have := (hT.seg_perm hF).mem_iff.2 hx
      obtain ⟨e, he, h1⟩ := List.mem_map.1 this
      exact ⟨(s.y, e), List.mem_append_right _ (List.mem_map_of_mem he), rfl, h1⟩
  · intro q hq
    rcases List.mem_append.1 hq with hq | hq
    · exact h.ok q hq
    · obtain ⟨e, he, rfl⟩ := List.mem_map.1 hq
      exact hev e he

/-- The event comes from one of the ranges of the line. -/
def FromRange (E : Env K) (s : State K) (e : OutputEvent K) : Prop :=
  ∃ c ∈ s.chg, ∃ buf buf' evs, nextRange E s buf c = some (buf', evs) ∧ e ∈ evs

theorem processLine_spec (hF : Finished E S0 M L s) (hs : E.Sched) (hE : E.Exact) (hpp : E.PP) (hC : E.Contours single)
    (hO : OrdC E s.y (s.line.map Entry.seg)) (cs : List CI) : ∀ {pre : List CI} (_ : s.chg = pre ++ cs) {p : Nat}
    {H : List (K × OutputEvent K)} {t t' : Topo K W} {yl : WithBot K} {done : Nat} (_ : LineRun E single S M s pre p H t yl done)
    {buf buf' : List Entry} (_ : processLine E single s cs buf t = some (buf', t')),
    ∃ H' p' yl' done', (∃ D, H' = H ++ D ∧ ∀ q ∈ D, q.1 = s.y ∧ FromRange E s q.2) ∧ LineRun E single S M s s.chg p' H' t' yl' done' ∧ yl' ≤ s.y := by
  induction cs with
  | nil =>
    intro pre hpre p H t t' yl done h buf buf' hr
    simp only [processLine, Option.some.injEq, Prod.mk.injEq] at hr
    obtain ⟨-, rfl⟩ := hr
    rw [List.append_nil] at hpre
    refine ⟨H, p, yl, done, ⟨[], by simp, by simp⟩, by rw [hpre]; exact h, ?_⟩
    rcases h.place with h1 | h1
    · exact h1.1.le
    · exact h1.1.le
  | cons c cs ih =>
    intro pre hpre p H t t' yl done h buf buf' hr
    simp only [processLine] at hr
    split at hr
    · simp at hr
    rename_i buf1 evs hnr
    split at hr
    · simp at hr
    rename_i t1 hpr
    obtain ⟨done1, h1⟩ := h.step hF hs hE hpp hC hO hpre hnr hpr
    obtain ⟨H', p', yl', done', ⟨D, hD, hDe⟩, h3⟩ := ih (by rw [hpre]; simp) h1 hr
    refine ⟨H', p', yl', done', ⟨(evs.map fun e => (s.y, e)) ++ D, by rw [hD, List.append_assoc], ?_⟩, h3⟩
    intro q hq
    rcases List.mem_append.1 hq with hq | hq
    · obtain ⟨e, he, rfl⟩ := List.mem_map.1 hq
      exact ⟨rfl, c, by rw [hpre]; simp, buf, buf1, evs, hnr, he⟩
    · exact hDe q hq

theorem LineRun.finish (hF : Finished E S0 M L s) {p : Nat} {H : List (K × OutputEvent K)} {t : Topo K W} {yl : WithBot K} {done : Nat}
    (h : LineRun E single S M s s.chg p H t yl done) : Trail E single ⟨H, newSegs s.line, t, yl, done⟩ ∧
      ∀ z, z < s.y → Beyond single E.orient z S ⟨H, newSegs s.line, t, yl, done⟩ := by
  have hlen : s.line.length = M.length := by
    have := hF.chg.same.len
    have := hF.move.len
    omega
  have hp : p ≤ s.line.length := by
    rcases h.place with ⟨_, h1, _⟩ | ⟨_, _, ⟨c, hc, h1⟩, _⟩
    · omega
    · have := hF.chg.bound c hc; omega
  have hg := hF.gap (le_refl s.line.length) (h.gap hF (cs := []) (by simp) (q := s.line.length) (by simp))
  have : newSegs s.line = newSegs (s.line.take p) ++ oldSegs (M.drop p) := by
    rw [drop_gap M (hz := none) (q := s.line.length) hp, oldSegs_append, ← hg.1, List.drop_eq_nil_of_le (by omega)]
    show _ = _ ++ (_ ++ [])
    rw [List.append_nil, ← newSegs_append, ← take_gap s.line hp, List.take_length]
  rw [this]
  exact ⟨h.trail, h.beyond⟩

end

/-! ## The whole sweep -/

/-- The sweep lines the sweeper stops at. -/
inductive Reached (E : Env K) (fuel : Nat) : State K → Prop
  | first (s : State K) : nextLine E fuel (State.new E) = some (some s) → Reached E fuel s
  | next (s s' : State K) : Reached E fuel s → nextLine E fuel s = some (some s') → Reached E fuel s'

/-- The event comes from one of the ranges of one of the lines of the sweep. -/
def Emitted (E : Env K) (fuel : Nat) (y : K) (e : OutputEvent K) : Prop :=
  ∃ s s', (s = State.new E ∨ Reached E fuel s) ∧ nextLine E fuel s = some (some s') ∧ s'.y = y ∧ FromRange E s' e

/-- The sweep down to the height `yl`. -/
structure Swept (E : Env K) (single : Nat → Bool → W) (fuel : Nat) (yl : WithBot K) (line : List Nat) (H : List (K × OutputEvent K)) (t : Topo K W) : Prop where
  steps : ∃ (yl' : WithBot K) (done : Nat), yl' ≤ yl ∧ Steps single E.orient SState.init ⟨H, line, t, yl', done⟩
  hist : ∀ q ∈ H, (q.1 : WithBot K) ≤ yl
  ok : ∀ q ∈ H, EvOk E q.1 q.2
  src : ∀ q ∈ H, Emitted E fuel q.1 q.2
  starts : ∀ a ∈ E.segs, (E.startY a : WithBot K) ≤ yl → ∃ q ∈ H, q.1 = E.startY a ∧ q.2.segIdx = a
  stops : ∀ a ∈ E.segs, (E.endY a : WithBot K) ≤ yl → ∃ q ∈ H, q.1 = E.endY a ∧ q.2.segIdx = a

/-- The line after `s`, if there is one, is below `z`. -/
def LastBefore (E : Env K) (fuel : Nat) (z : K) (s : State K) : Prop :=
  nextLine E fuel s = some none ∨ ∃ s', nextLine E fuel s = some (some s') ∧ z < s'.y

theorem sweepLoop_spec (hs : E.Sched) (hE : E.Exact) (hpp : E.PP) (hC : E.Contours single) {fuel2 : Nat}
    (hO : ∀ s, Reached E fuel2 s → OrdC E s.y (s.line.map Entry.seg)) (fuel : Nat) : ∀ {yl : WithBot K} {s : State K} {buf : List Entry}
    {H : List (K × OutputEvent K)} {t t' : Topo K W} {yl0 : WithBot K} {done : Nat}, Between E yl s → (s = State.new E ∨ Reached E fuel2 s) →
    Swept E single fuel2 yl (newSegs s.line) H t → yl0 ≤ yl → Trail E single ⟨H, newSegs s.line, t, yl0, done⟩ →
    sweepLoop E single fuel2 fuel s buf t = some t' →
    ∃ H' yl' F, (∀ a ∈ E.segs, (E.startY a : WithBot K) ≤ yl' ∧ (E.endY a : WithBot K) ≤ yl') ∧ Swept E single fuel2 yl' [] H' t' ∧
      F.hist = H' ∧ F.line = [] ∧ F.t = t' ∧ Trail E single F ∧
      (∀ z, LastBefore E fuel2 z s → Beyond single E.orient z ⟨H, newSegs s.line, t, yl0, done⟩ F) ∧
      ∀ z : K, yl ≤ z → ∃ st S, (st = s ∨ (Reached E fuel2 st ∧ st.y ≤ z)) ∧ LastBefore E fuel2 z st ∧ Steps single E.orient SState.init S ∧
        S.line = newSegs st.line ∧ S.yl ≤ z ∧ Beyond single E.orient z S F := by
  induction fuel with
  | zero => intro yl s buf H t t' _ _ _ _ _ _ _ h; simp [sweepLoop] at h
  | succ fuel ih =>
    intro yl s buf H t t' yl0 done hB hreach hS hle hst h
    simp only [sweepLoop] at h
    split at h
    · simp at h
    · rename_i hn
      simp only [Option.some.injEq] at h
      subst h
      obtain ⟨h1, h2⟩ := nextLine_none hs hB hn
      rw [h1] at hS
      refine ⟨H, yl, _, h2, hS, rfl, h1, rfl, hst, fun z _ => .inl rfl, ?_⟩
      intro z hz
      exact ⟨s, _, .inl rfl, .inl hn, hst.steps, rfl, hle.trans hz, .inl rfl⟩
    · rename_i s1 hn
      obtain ⟨hy, ⟨M, L, hF⟩, hB1, hny⟩ := nextLine_some hs hpp hB hn
      have hr1 : Reached E fuel2 s1 := by
        rcases hreach with rfl | hr
        · exact .first _ hn
        · exact .next _ _ hr hn
      split at h
      · simp at h
      rename_i buf1 t1 hpl
      have hL0 : LineRun E single ⟨H, newSegs s.line, t, yl0, done⟩ M s1 [] 0 H t yl0 done := by
        constructor
        case trail =>
          show Trail E single ⟨H, [] ++ oldSegs M, t, yl0, done⟩
          rw [List.nil_append, hF.old]; exact hst
        case beyond =>
          intro z _
          show Beyond single E.orient z _ ⟨H, [] ++ oldSegs M, t, yl0, done⟩
          rw [List.nil_append, hF.old]; exact .inl rfl
        case place => exact .inl ⟨lt_of_le_of_lt hle hy, rfl, rfl⟩
        case hist =>
          intro q hq
          left
          exact WithBot.coe_lt_coe.1 (lt_of_le_of_lt (hS.hist q hq) hy)
        case all => simp
        case ok => exact hS.ok
      obtain ⟨H', p', yl2, done2, ⟨D, hD, hDe⟩, hfin, hle2⟩ := processLine_spec hF hs hE hpp hC (hO s1 hr1) s1.chg (pre := []) rfl hL0 hpl
      have hat : ∀ a ∈ E.segs, ∀ x, Touches E x s1.y a → ∃ q ∈ H', q.1 = s1.y ∧ q.2.segIdx = a := by
        intro a ha x ht
        obtain ⟨c, hc, h1⟩ := hF.covers hs ha ht
        exact hfin.all c hc a h1
      -- nothing starts or ends between the two lines
      have hbetween : ∀ z : K, (z : WithBot K) ≤ s1.y → ¬ (z : WithBot K) ≤ yl → ∀ a ∈ E.segs, (E.startY a = z ∨ E.endY a = z) → z = s1.y := by
        intro z h1 h2 a ha hz
        obtain ⟨_, n2, n3, _⟩ := nextY_some hny
        refine le_antisymm (WithBot.coe_le_coe.1 h1) ?_
        have hst : (E.startY a : WithBot K) > yl → s1.y ≤ E.startY a := by
          intro hgt
          obtain ⟨p, hp, rfl⟩ := List.mem_map.1 ha
          rw [← hs.enter_y p hp] at hgt ⊢
          exact hB.enter.head hs.enter_sorted n2 hp hgt
        rcases hz with rfl | rfl
        · exact hst (not_le.1 h2)
        · by_cases hh : E.isHorizontal a = true
          · unfold Env.isHorizontal at hh
            rw [decide_eq_true_eq] at hh
            rw [← hh] at h2 ⊢
            exact hst (not_le.1 h2)
          · obtain ⟨p, hp, rfl⟩ := List.mem_map.1 ((hs.exit_mem a).2 ⟨ha, by simpa using hh⟩)
            rw [← hs.exit_y p hp] at h2 ⊢
            exact hB.exit.head hs.exit_sorted n3 hp (not_le.1 h2)
      obtain ⟨hst1, hbey⟩ := hfin.finish hF
      suffices hS1 : Swept E single fuel2 s1.y (newSegs s1.line) H' t1 by
        obtain ⟨H2, ylf, F, i1, i2, i3, i4, i5, i6, i7, i8⟩ := ih hB1 (.inr hr1) hS1 hle2 hst1 h
        have hnext : ∀ z, z < s1.y → LastBefore E fuel2 z s1 → Beyond single E.orient z ⟨H, newSegs s.line, t, yl0, done⟩ F :=
          fun z hz hl => (hbey z hz).trans (i7 z hl)
        have hlater : ∀ z, z < s1.y → LastBefore E fuel2 z s1 := by
          intro z hz
          have hsome : sweepLoop E single fuel2 fuel s1 buf1 t1 = some t' := h
          cases fuel with
          | zero => simp [sweepLoop] at hsome
          | succ fuel =>
            simp only [sweepLoop] at hsome
            split at hsome
            · simp at hsome
            · rename_i hn2; exact .inl hn2
            · rename_i s2 hn2
              exact .inr ⟨s2, hn2, hz.trans (WithBot.coe_lt_coe.1 (nextLine_some hs hpp hB1 hn2).1)⟩
        refine ⟨H2, ylf, F, i1, i2, i3, i4, i5, i6, ?_, ?_⟩
        · intro z hz
          rcases hz with hz | ⟨s', hz, hlt⟩
          · rw [hn] at hz; simp at hz
          · rw [hn] at hz
            simp only [Option.some.injEq] at hz
            subst hz
            exact hnext z hlt (hlater z hlt)
        · intro z hz
          by_cases hlt : z < s1.y
          · exact ⟨s, _, .inl rfl, .inr ⟨s1, hn, hlt⟩, hst.steps, rfl, hle.trans hz, hnext z hlt (hlater z hlt)⟩
          · obtain ⟨st, S, j1, j2⟩ := i8 z (WithBot.coe_le_coe.2 (not_lt.1 hlt))
            refine ⟨st, S, ?_, j2⟩
            rcases j1 with rfl | j1
            · exact .inr ⟨hr1, not_lt.1 hlt⟩
            · exact .inr j1
      constructor
      case steps => exact ⟨yl2, done2, hle2, hst1.steps⟩
      case hist =>
        intro q hq
        rcases hfin.hist q hq with h1 | h1
        · exact WithBot.coe_le_coe.2 h1.le
        · exact WithBot.coe_le_coe.2 h1.1.le
      case ok => exact hfin.ok
      case src =>
        intro q hq
        rw [hD] at hq
        rcases List.mem_append.1 hq with hq | hq
        · exact hS.src q hq
        · exact ⟨s, s1, hreach, hn, (hDe q hq).1.symm, (hDe q hq).2⟩
      case starts =>
        intro a ha hle
        by_cases hlt : (E.startY a : WithBot K) ≤ yl
        · obtain ⟨q, q1, q2⟩ := hS.starts a ha hlt
          exact ⟨q, by rw [hD]; exact List.mem_append_left _ q1, q2⟩
        · have := hbetween _ hle hlt a ha (.inl rfl)
          rw [this]
          exact hat a ha (E.startX a) (.inl ⟨rfl, this⟩)
      case stops =>
        intro a ha hle
        by_cases hlt : (E.endY a : WithBot K) ≤ yl
        · obtain ⟨q, q1, q2⟩ := hS.stops a ha hlt
          exact ⟨q, by rw [hD]; exact List.mem_append_left _ q1, q2⟩
        · have := hbetween _ hle hlt a ha (.inr rfl)
          rw [this]
          exact hat a ha (E.endX a) (.inr ⟨rfl, this⟩)

/-- The driver only makes legal steps, it takes in every segment from its start to its end, and nothing is left on the line. At every height
the line of the sweep is the line of the last sweep line that is not below it. -/
theorem fromSegments_lines (hs : E.Sched) (hE : E.Exact) (hpp : E.PP) (hC : E.Contours single) {fuel2 fuel : Nat}
    (hO : ∀ s, Reached E fuel2 s → OrdC E s.y (s.line.map Entry.seg)) {t : Topo K W} (h : fromSegments E single fuel2 fuel = some t) :
    ∃ F : SState K W, F.line = [] ∧ F.t = t ∧ Trail E single F ∧ (∀ q ∈ F.hist, EvOk E q.1 q.2 ∧ Emitted E fuel2 q.1 q.2) ∧
      (∀ a ∈ E.segs, ∃ q ∈ F.hist, q.1 = E.startY a ∧ q.2.segIdx = a) ∧ (∀ a ∈ E.segs, ∃ q ∈ F.hist, q.1 = E.endY a ∧ q.2.segIdx = a) ∧
      ∀ z : K, ∃ (st : State K) (S : SState K W), (st = State.new E ∨ (Reached E fuel2 st ∧ st.y ≤ z)) ∧ LastBefore E fuel2 z st ∧
        Steps single E.orient SState.init S ∧ S.line = newSegs st.line ∧ S.yl ≤ z ∧ Beyond single E.orient z S F := by
  have hS0 : Swept E single fuel2 ⊥ (newSegs (State.new E).line) [] (Topo.init : Topo K W) := by
    constructor
    case steps => exact ⟨⊥, 0, le_refl _, Steps.refl _⟩
    case hist => simp
    case ok => simp
    case src => simp
    case starts => intro a _ h; simp at h
    case stops => intro a _ h; simp at h
  obtain ⟨H, yl, F, h1, h2, rfl, h4, rfl, h6, h7, h8⟩ :=
    sweepLoop_spec hs hE hpp hC hO fuel (Between.init E) (.inl rfl) hS0 le_rfl .init h
  exact ⟨F, h4, rfl, h6, fun q hq => ⟨h2.ok q hq, h2.src q hq⟩, fun a ha => h2.starts a ha (h1 a ha).1, fun a ha => h2.stops a ha (h1 a ha).2, fun z => h8 z bot_le⟩

theorem fromSegments_emitted (hs : E.Sched) (hE : E.Exact) (hpp : E.PP) (hC : E.Contours single) {fuel2 fuel : Nat}
    (hO : ∀ s, Reached E fuel2 s → OrdC E s.y (s.line.map Entry.seg)) {t : Topo K W} (h : fromSegments E single fuel2 fuel = some t) :
    ∃ H yl done, Steps single E.orient SState.init ⟨H, [], t, yl, done⟩ ∧ (∀ q ∈ H, EvOk E q.1 q.2 ∧ Emitted E fuel2 q.1 q.2) ∧
      (∀ a ∈ E.segs, ∃ q ∈ H, q.1 = E.startY a ∧ q.2.segIdx = a) ∧ (∀ a ∈ E.segs, ∃ q ∈ H, q.1 = E.endY a ∧ q.2.segIdx = a) := by
  obtain ⟨⟨H, line, t', yl, done⟩, h1, h2, h3, h4, h5, h6, _⟩ := fromSegments_lines hs hE hpp hC hO h
  change line = [] at h1
  change t' = t at h2
  subst h1 h2
  exact ⟨H, yl, done, h3.steps, h4, h5, h6⟩

theorem fromSegments_spec (hs : E.Sched) (hE : E.Exact) (hpp : E.PP) (hC : E.Contours single) {fuel2 fuel : Nat}
    (hO : ∀ s, Reached E fuel2 s → OrdC E s.y (s.line.map Entry.seg)) {t : Topo K W} (h : fromSegments E single fuel2 fuel = some t) :
    ∃ H yl done, Steps single E.orient SState.init ⟨H, [], t, yl, done⟩ ∧ (∀ q ∈ H, EvOk E q.1 q.2) ∧
      (∀ a ∈ E.segs, ∃ q ∈ H, q.1 = E.startY a ∧ q.2.segIdx = a) ∧ (∀ a ∈ E.segs, ∃ q ∈ H, q.1 = E.endY a ∧ q.2.segIdx = a) := by
  obtain ⟨H, yl, done, h1, h2, h3⟩ := fromSegments_emitted hs hE hpp hC hO h
  exact ⟨H, yl, done, h1, fun q hq => (h2 q hq).1, h3⟩

end Verif.Sweep
