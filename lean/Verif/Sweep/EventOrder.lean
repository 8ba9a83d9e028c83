import Verif.Sweep.Events

/-!
# The order of the calls of `sweep::sweep` (C99)

The calls come range by range. Within a range they go from left to right; the ranges of one sweep line are in the order of the sweep line.
-/

namespace Verif.Sweep
open Verif.Curve Verif.Range Verif.Topo
set_option linter.unusedSectionVars false

variable {K : Type} [LinearOrder K] {E : Env K}

/-! ## Specification -/

/-- The calls that belong together: those of one range. -/
structure Block (K : Type) where
  y : K
  calls : List (OutputEvent K)

/-- Every segment of `b` is on the sweep line to the left of every segment of `c`: above the line, and below it. -/
def LeftOf (b c : List (OutputEvent K)) : Prop :=
  ∀ p ∈ b, ∀ q ∈ c,
    (p.connectedAbove = true → q.connectedAbove = true → ∃ i j, p.oldSweepIdx = some i ∧ q.oldSweepIdx = some j ∧ i < j) ∧
    (p.connectedBelow = true → q.connectedBelow = true → ∃ i j, p.sweepIdx = some i ∧ q.sweepIdx = some j ∧ i < j)

/-- The calls are made block by block; a later block is lower, or at the same height and further right; the right ends of the calls of one block do not
decrease. -/
structure InBlocks (out : List (K × OutputEvent K)) (bs : List (Block K)) : Prop where
  calls : out = bs.flatMap fun b => b.calls.map fun e => (b.y, e)
  order : bs.Pairwise fun b c => b.y < c.y ∨ b.y = c.y ∧ LeftOf b.calls c.calls
  sorted : ∀ b ∈ bs, b.calls.Pairwise fun p q => p.largerX ≤ q.largerX

/-! ## Proofs -/

theorem batched_sorted : ∀ {last : Option K} {xs : List K} {bs : List (List (OutputEvent K))}, Batched last xs bs →
    (∀ p ∈ bs.flatten, ∀ l, last = some l → l < p.largerX) ∧ bs.flatten.Pairwise fun p q => p.largerX ≤ q.largerX := by
  intro last xs bs
  induction bs generalizing last xs with
  | nil => intro _; exact ⟨by simp, by simp⟩
  | cons b bs ih =>
    intro h
    cases xs with
    | nil => exact absurd h (by simp [Batched])
    | cons x xs =>
      obtain ⟨h1, h2, h3⟩ := h
      obtain ⟨i1, i2⟩ := ih h3
      rw [List.flatten_cons]
      constructor
      · intro p hp l hl
        rcases List.mem_append.1 hp with hp | hp
        · rw [(h2 p hp).1]; exact h1 l hl
        · exact (h1 l hl).trans (i1 p hp x rfl)
      · rw [List.pairwise_append]
        refine ⟨List.pairwise_of_forall_mem_list fun p hp q hq => ((h2 p hp).1.trans (h2 q hq).1.symm).le, i2, fun p hp q hq => ?_⟩
        rw [(h2 p hp).1]
        exact (i1 q hq x rfl).le

theorem Tiling.piece {e : OutputEvent K} {ps : List (OutputEvent K)} : ∀ {a b : K}, Tiling e a b ps → ∀ p ∈ ps, ∃ c d, p = pieceOf e c d := by
  induction ps with
  | nil => intro a b _ p hp; simp at hp
  | cons q ps ih =>
    rintro a b ⟨c, h1, h2, rfl, h4⟩ p hp
    rcases List.mem_cons.1 hp with rfl | hp
    · exact ⟨a, c, rfl⟩
    · exact ih h4 p hp

theorem pieceOf_flags (e : OutputEvent K) (a b : K) :
    (pieceOf e a b).sweepIdx = e.sweepIdx ∧ (pieceOf e a b).oldSweepIdx = e.oldSweepIdx ∧
    ((pieceOf e a b).connectedAbove = true → e.connectedAbove = true) ∧ ((pieceOf e a b).connectedBelow = true → e.connectedBelow = true) := by
  unfold pieceOf
  split <;> simp

/-- The segment is on the sweep line at one of the places from `i` to `j`, above and below, if it goes on there. -/
def Between' (i j : Nat) (e : OutputEvent K) : Prop :=
  (e.connectedAbove = true → ∃ k, e.oldSweepIdx = some k ∧ i ≤ k ∧ k < j) ∧ (e.connectedBelow = true → ∃ k, e.sweepIdx = some k ∧ i ≤ k ∧ k < j)

section
variable {S0 : List Nat} {M L : List Entry} {s : State K}

theorem Tagged.places' {c : CI} {evs : List (OutputEvent K)} {T To : List (Tag K)} (hT : Tagged E s M c evs T To) : ∀ e ∈ evs, Between' c.start c.stop e := by
  intro e he
  have hlen : To.length = c.stop - c.start := by
    rw [hT.perm.length_eq]
    have := congrArg List.length hT.places
    simpa using this
  rcases List.mem_append.1 (hT.events.mem_iff.1 he) with h1 | h1
  · obtain ⟨t, ht, hte⟩ := List.mem_flatMap.1 h1
    have hok := hT.ok t ht
    have hi : c.start ≤ t.i ∧ t.i < c.stop := by
      have : t.i ∈ List.range' c.start (c.stop - c.start) := hT.places ▸ List.mem_map_of_mem ht
      rw [List.mem_range'_1] at this
      omega
    unfold Tag.events at hte
    rcases List.mem_cons.1 hte with rfl | hte
    · constructor
      · intro _
        obtain ⟨k, hk⟩ := List.mem_iff_getElem?.1 (hT.perm.mem_iff.2 ht)
        have hkl := (List.getElem?_eq_some_iff.1 hk).1
        exact ⟨c.start + k, by rw [hok.oldIdx, hT.oldPlace k t hk], by omega, by omega⟩
      · intro hb
        exact ⟨t.i, hok.idx hb, hi⟩
    · by_cases ho : t.e.oldSeg = none
      · rw [hok.noExtra ho] at hte
        simp at hte
      · obtain ⟨ev, g1, -, g3, g4, g5, -⟩ := hok.extra ho
        rw [g1] at hte
        simp only [Option.toList_some, List.mem_singleton] at hte
        subst hte
        refine ⟨fun h => ?_, fun _ => ⟨t.i, g5, hi⟩⟩
        rw [g3] at h
        simp at h
  · obtain ⟨x, -, rfl⟩ := List.mem_map.1 h1
    simp [Between', horizEvent]

/-- The calls of one range. -/
theorem range_block (hF : Finished E S0 M L s) (hE : E.Exact) {c : CI} (hc : c ∈ s.chg) {buf buf' : List Entry} {evs : List (OutputEvent K)}
    (hr : nextRange E s buf c = some (buf', evs)) {bs : List (List (OutputEvent K))} (hbs : (SLRange.new evs).runEvents = some bs) :
    (∀ p ∈ bs.flatten, Between' c.start c.stop p) ∧ bs.flatten.Pairwise fun p q => p.largerX ≤ q.largerX := by
  obtain ⟨T, To, hT⟩ := nextRange_tags hF hE hc hr
  obtain ⟨bs', xs, h1, h2, h3, h4⟩ := C37_tiles evs hT.sorted ((hT.seg_perm hF).nodup_iff.2 (hF.range_nodup c))
  obtain rfl : bs = bs' := by rw [hbs] at h1; simpa using h1
  refine ⟨fun p hp => ?_, (batched_sorted h2).2⟩
  obtain ⟨b, hb, hpb⟩ := List.mem_flatten.1 hp
  obtain ⟨e, he, hpe⟩ := h4 b hb p hpb
  have hm : p ∈ bs.flatten.filter fun p => decide (p.segIdx = e.segIdx) := by
    rw [List.mem_filter]
    exact ⟨hp, by simpa using hpe⟩
  have hpl := hT.places' e he
  by_cases hx : e.x0 = e.x1
  · rw [(h3 e he).1 hx, List.mem_singleton] at hm
    rw [hm]
    exact hpl
  · obtain ⟨u, v, rfl⟩ := Tiling.piece ((h3 e he).2 hx) p hm
    obtain ⟨f1, f2, f3, f4⟩ := pieceOf_flags e u v
    unfold Between'
    rw [f1, f2]
    exact ⟨fun h => hpl.1 (f3 h), fun h => hpl.2 (f4 h)⟩

theorem leftOf_places {i j k l : Nat} (h : j ≤ k) {b c : List (OutputEvent K)} (hb : ∀ p ∈ b, Between' i j p) (hc : ∀ p ∈ c, Between' k l p) : LeftOf b c := by
  intro p hp q hq
  constructor
  · intro h1 h2
    obtain ⟨m, m1, m2, m3⟩ := (hb p hp).1 h1
    obtain ⟨n, n1, n2, n3⟩ := (hc q hq).1 h2
    exact ⟨m, n, m1, n1, by omega⟩
  · intro h1 h2
    obtain ⟨m, m1, m2, m3⟩ := (hb p hp).2 h1
    obtain ⟨n, n1, n2, n3⟩ := (hc q hq).2 h2
    exact ⟨m, n, m1, n1, by omega⟩

theorem lineEvents_blocks (hF : Finished E S0 M L s) (hE : E.Exact) (cs : List CI) : ∀ {pre : List CI} (_ : s.chg = pre ++ cs)
    {buf buf' : List Entry} {out : List (K × OutputEvent K)} (_ : lineEvents E s cs buf = some (buf', out)),
    ∃ bs, InBlocks out bs ∧ ∀ b ∈ bs, b.y = s.y ∧ ∃ c ∈ cs, ∀ p ∈ b.calls, Between' c.start c.stop p := by
  induction cs with
  | nil =>
    intro pre _ buf buf' out h
    simp only [lineEvents, Option.some.injEq, Prod.mk.injEq] at h
    obtain ⟨-, rfl⟩ := h
    exact ⟨[], ⟨rfl, .nil, by simp⟩, by simp⟩
  | cons c cs ih =>
    intro pre hpre buf buf' out h
    simp only [lineEvents] at h
    split at h
    · simp at h
    rename_i buf1 evs hnr
    split at h
    · simp at h
    rename_i bs hbs
    split at h
    · simp at h
    rename_i buf2 out1 hrest
    simp only [Option.some.injEq, Prod.mk.injEq] at h
    obtain ⟨-, rfl⟩ := h
    have hc : c ∈ s.chg := by rw [hpre]; simp
    obtain ⟨k1, k2⟩ := range_block hF hE hc hnr hbs
    obtain ⟨B, i1, i2⟩ := ih (pre := pre ++ [c]) (by rw [hpre]; simp) hrest
    have hsep := hF.chg.sep
    rw [hpre, List.pairwise_append, List.pairwise_cons] at hsep
    refine ⟨⟨s.y, bs.flatten⟩ :: B, ⟨?_, ?_, ?_⟩, ?_⟩
    · rw [List.flatMap_cons, ← i1.calls]
    · rw [List.pairwise_cons]
      refine ⟨fun b hb => ?_, i1.order⟩
      obtain ⟨b1, d, hd, b2⟩ := i2 b hb
      exact .inr ⟨b1.symm, leftOf_places (hsep.2.1.1 d hd).le k1 b2⟩
    · intro b hb
      rcases List.mem_cons.1 hb with rfl | hb
      · exact k2
      · exact i1.sorted b hb
    · intro b hb
      rcases List.mem_cons.1 hb with rfl | hb
      · exact ⟨rfl, c, by simp, k1⟩
      · obtain ⟨b1, d, hd, b2⟩ := i2 b hb
        exact ⟨b1, d, by simp [hd], b2⟩

end

theorem sweepEvents_blocks (hs : E.Sched) (hE : E.Exact) (hpp : E.PP) {fuel2 : Nat} (fuel : Nat) : ∀ {yl : WithBot K} {s : State K} {buf : List Entry}
    {out : List (K × OutputEvent K)}, Between E yl s → sweepEvents E fuel2 fuel s buf = some out → ∃ bs, InBlocks out bs ∧ ∀ b ∈ bs, yl < b.y := by
  induction fuel with
  | zero => intro yl s buf out _ h; simp [sweepEvents] at h
  | succ fuel ih =>
    intro yl s buf out hB h
    simp only [sweepEvents] at h
    split at h
    · simp at h
    · simp only [Option.some.injEq] at h
      subst h
      exact ⟨[], ⟨rfl, .nil, by simp⟩, by simp⟩
    · rename_i s1 hn
      obtain ⟨hy, ⟨M, L, hF⟩, hB1, hny⟩ := nextLine_some hs hpp hB hn
      split at h
      · simp at h
      rename_i buf1 out1 hl
      split at h
      · simp at h
      rename_i out2 hrest
      simp only [Option.some.injEq] at h
      subst h
      obtain ⟨B1, b1, b2⟩ := lineEvents_blocks hF hE s1.chg (pre := []) rfl hl
      obtain ⟨B2, c1, c2⟩ := ih hB1 hrest
      refine ⟨B1 ++ B2, ⟨?_, ?_, ?_⟩, ?_⟩
      · rw [List.flatMap_append, ← b1.calls, ← c1.calls]
      · rw [List.pairwise_append]
        refine ⟨b1.order, c1.order, fun b hb c hc => .inl ?_⟩
        rw [(b2 b hb).1]
        exact WithBot.coe_lt_coe.1 (c2 c hc)
      · intro b hb
        rcases List.mem_append.1 hb with hb | hb
        · exact b1.sorted b hb
        · exact c1.sorted b hb
      · intro b hb
        rcases List.mem_append.1 hb with hb | hb
        · rw [(b2 b hb).1]; exact hy
        · exact hy.trans (c2 b hb)

/-! ## Theorem -/

/-- **C99.** The calls come in blocks, from top to bottom and from left to right, and within a block from left to right. -/
theorem C99_order (hs : E.Sched) (hE : E.Exact) (hpp : E.PP) {fuel2 fuel : Nat} {out : List (K × OutputEvent K)} (h : callbacks E fuel2 fuel = some out) :
    ∃ bs, InBlocks out bs := by
  obtain ⟨bs, h1, -⟩ := sweepEvents_blocks hs hE hpp fuel (Between.init E) h
  exact ⟨bs, h1⟩

end Verif.Sweep
