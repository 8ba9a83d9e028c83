import Verif.Sweep.Drive
import Verif.Scan.Props

/-! # The sweep: properties C31-C36 and C61 -/

namespace Verif.Sweep
open Verif.Curve Verif.Range Verif.Topo
set_option linter.unusedSectionVars false

variable {K : Type} [LinearOrder K] {W : Type} [AddCommGroup W] {E : Env K}

/-! ## C31: the sweep lines -/

theorem Reached.spec (hs : E.Sched) (hpp : E.PP) {fuel : Nat} {s : State K} (h : Reached E fuel s) :
    Between E s.y s ∧ ∃ S0 M L, Finished E S0 M L s := by
  induction h with
  | first s h =>
    obtain ⟨_, ⟨M, L, h1⟩, h2, _⟩ := nextLine_some hs hpp (Between.init E) h
    exact ⟨h2, _, M, L, h1⟩
  | next s s' _ h ih =>
    obtain ⟨_, ⟨M, L, h1⟩, h2, _⟩ := nextLine_some hs hpp ih.1 h
    exact ⟨h2, _, M, L, h1⟩

/-- C31: the heights of the sweep lines strictly increase. -/
theorem C31_increasing (hs : E.Sched) (hpp : E.PP) {fuel : Nat} {s s' : State K} (h : Reached E fuel s)
    (hn : nextLine E fuel s = some (some s')) : s.y < s'.y :=
  WithBot.coe_lt_coe.1 (nextLine_some hs hpp (h.spec hs hpp).1 hn).1

/-- C31: on every sweep line there are exactly the segments that reach its height, each exactly once: the others on the line (a
continuation holds two of them), the horizontal ones in the list of horizontal segments. -/
theorem C31_content (hs : E.Sched) (hpp : E.PP) {fuel : Nat} {s : State K} (h : Reached E fuel s) :
    (s.line.flatMap (fun e => e.seg :: e.oldSeg.toList) ++ s.horiz).Nodup ∧
    ∀ x, x ∈ s.line.flatMap (fun e => e.seg :: e.oldSeg.toList) ++ s.horiz ↔
      x ∈ E.entrances.map Prod.snd ∧ E.startY x ≤ s.y ∧ s.y ≤ E.endY x := by
  obtain ⟨_, S0, M, L, hF⟩ := h.spec hs hpp
  change (lineIds s.line ++ s.horiz).Nodup ∧ ∀ x, x ∈ lineIds s.line ++ s.horiz ↔ _
  have hmem : ∀ x, x ∈ lineIds s.line ↔ x ∈ E.segs ∧ E.isHorizontal x = false ∧ E.startY x ≤ s.y ∧ s.y ≤ E.endY x :=
    fun x => (hF.ids_perm.mem_iff).trans (hF.mem x)
  constructor
  · rw [List.nodup_append]
    refine ⟨hF.ids_perm.nodup_iff.2 hF.nodup, hF.horizNodup, ?_⟩
    rintro a ha b hb rfl
    have h1 := (hmem a).1 ha
    have h2 := (hF.horiz a).1 hb
    rw [h1.2.1] at h2
    simp at h2
  · intro x
    rw [List.mem_append, hmem, hF.horiz]
    show _ ↔ x ∈ E.segs ∧ _
    by_cases hh : E.isHorizontal x = true
    · have heq : E.startY x = E.endY x := by simpa [Env.isHorizontal] using hh
      constructor
      · rintro (h | h)
        · rw [hh] at h; simp at h
        · exact ⟨h.1, h.2.2.le, by rw [← heq, h.2.2]⟩
      · rintro ⟨h1, h2, h3⟩
        exact .inr ⟨h1, hh, le_antisymm h2 (by rw [heq]; exact h3)⟩
    · have hf : E.isHorizontal x = false := by simpa using hh
      constructor
      · rintro (h | h)
        · exact ⟨h.1, h.2.2⟩
        · exact absurd h.2.1 hh
      · rintro ⟨h1, h2⟩
        exact .inl ⟨h1, hf, h2⟩

/-- C31: the marks on the line. A segment is marked as entering exactly on the line of its start; an entry is marked as leaving for good
exactly on the line of the end of its segment, and the second segment of an entry ends here, where its contour neighbour starts. -/
theorem C31_marks (hs : E.Sched) (hpp : E.PP) {fuel : Nat} {s : State K} (h : Reached E fuel s) {e : Entry} (he : e ∈ s.line) :
    (e.enter = true ↔ E.startY e.seg = s.y) ∧ (e.exit = true ∧ e.oldSeg = none ↔ E.endY e.seg = s.y) ∧
    ∀ o, e.oldSeg = some o → E.startY o < s.y ∧ E.endY o = s.y ∧ E.startY e.seg = s.y ∧ E.endX o = E.startX e.seg ∧
      (if E.orient e.seg then E.contourPrev e.seg else E.contourNext e.seg) = some o := by
  obtain ⟨_, S0, M, L, hF⟩ := h.spec hs hpp
  have hk := hF.kind he
  obtain ⟨h1, h2⟩ := hF.entry_seg he
  have hm := hF.mem_line he
  refine ⟨?_, ?_, ?_⟩
  · rcases hk with ⟨a, b, c⟩ | ⟨a, b, c, d⟩ | ⟨o, a, b, c, d, _⟩ | ⟨a, b, c, d⟩
    · simp [a, (h1 a).ne]
    · simp [a, d]
    · simp [a, d]
    · simp [a, (h1 a).ne]
  · rcases hk with ⟨a, b, c⟩ | ⟨a, b, c, d⟩ | ⟨o, a, b, c, d, _⟩ | ⟨a, b, c, d⟩
    · simp [b, (h2 (.inl b)).ne']
    · simp [b, (h2 (.inl b)).ne']
    · simp [c, (h2 (.inr (by simp [c]))).ne']
    · simp [b, c, d]
  · intro o ho
    rcases hk with ⟨a, b, c⟩ | ⟨a, b, c, d⟩ | ⟨o', a, b, c, d, f, g, i, j⟩ | ⟨a, b, c, d⟩
    · rw [c] at ho; simp at ho
    · rw [c] at ho; simp at ho
    · rw [c, Option.some.injEq] at ho
      subst ho
      exact ⟨g, j, d, i, f⟩
    · rw [c] at ho; simp at ho

theorem nextY_le (hs : E.Sched) {yl : WithBot K} {s : State K} (hb : Between E yl s) {y : K} (hy : nextY E s = some y) {x : Nat} (hx : x ∈ E.segs) :
    (yl < E.startY x → y ≤ E.startY x) ∧ (yl < E.endY x → y ≤ E.endY x) := by
  obtain ⟨_, h1, h2, _⟩ := nextY_some hy
  have hstart : yl < E.startY x → y ≤ E.startY x := by
    intro hlt
    obtain ⟨p, hp, rfl⟩ := List.mem_map.1 hx
    rw [← hs.enter_y p hp] at hlt ⊢
    exact hb.enter.head hs.enter_sorted h1 hp hlt
  refine ⟨hstart, ?_⟩
  intro hlt
  by_cases hh : E.isHorizontal x = true
  · have heq : E.startY x = E.endY x := by simpa [Env.isHorizontal] using hh
    rw [← heq] at hlt ⊢
    exact hstart hlt
  · have : x ∈ E.exits.map Prod.snd := (hs.exit_mem x).2 ⟨hx, by simpa using hh⟩
    obtain ⟨p, hp, rfl⟩ := List.mem_map.1 this
    rw [← hs.exit_y p hp] at hlt ⊢
    exact hb.exit.head hs.exit_sorted h2 hp hlt

/-- C31: no height is passed over: when the sweep has got to the height of the start (or of the end) of a segment or below it, there
was a sweep line at exactly that height. -/
theorem C31_no_skip (hs : E.Sched) (hpp : E.PP) {fuel : Nat} {s : State K} (h : Reached E fuel s) {x : Nat} (hx : x ∈ E.entrances.map Prod.snd) :
    (E.startY x ≤ s.y → ∃ s0, Reached E fuel s0 ∧ s0.y = E.startY x) ∧ (E.endY x ≤ s.y → ∃ s0, Reached E fuel s0 ∧ s0.y = E.endY x) := by
  have key : ∀ (yl : WithBot K) (s1 s2 : State K), Between E yl s1 → nextLine E fuel s1 = some (some s2) → Reached E fuel s2 →
      ∀ v, (v = E.startY x ∨ v = E.endY x) → ((v : WithBot K) ≤ yl → ∃ s0, Reached E fuel s0 ∧ s0.y = v) → v ≤ s2.y → ∃ s0, Reached E fuel s0 ∧ s0.y = v := by
    intro yl s1 s2 hb hn hr v hv hbefore hle
    obtain ⟨_, _, _, hy⟩ := nextLine_some hs hpp hb hn
    have hle2 := nextY_le hs hb hy hx
    by_cases hc : (v : WithBot K) ≤ yl
    · exact hbefore hc
    · rw [not_le] at hc
      refine ⟨s2, hr, le_antisymm ?_ hle⟩
      rcases hv with rfl | rfl
      · exact hle2.1 hc
      · exact hle2.2 hc
  have main : ∀ v, (v = E.startY x ∨ v = E.endY x) → v ≤ s.y → ∃ s0, Reached E fuel s0 ∧ s0.y = v := by
    induction h with
    | first s h =>
      intro v hv hle
      exact key ⊥ _ s (Between.init E) h (.first s h) v hv (by simp) hle
    | next s s' hr h ih =>
      intro v hv hle
      exact key s.y s s' (hr.spec hs hpp).1 h (.next s s' hr h) v hv (fun hc => ih v hv (WithBot.coe_le_coe.1 hc)) hle
  exact ⟨main _ (.inl rfl), main _ (.inr rfl)⟩

/-- C31: when there is no further line, every segment has been passed and nothing is left on the line. -/
theorem C31_end (hs : E.Sched) (hpp : E.PP) {fuel : Nat} {s : State K} (h : Reached E fuel s) (hn : nextLine E fuel s = some none) :
    (∀ x ∈ E.entrances.map Prod.snd, E.startY x ≤ s.y ∧ E.endY x ≤ s.y) ∧ ∀ e ∈ s.line, e.exit = true ∧ e.oldSeg = none := by
  obtain ⟨h1, h2⟩ := nextLine_none hs (h.spec hs hpp).1 hn
  refine ⟨fun x hx => ⟨WithBot.coe_le_coe.1 (h2 x hx).1, WithBot.coe_le_coe.1 (h2 x hx).2⟩, ?_⟩
  intro e he
  by_contra hcon
  have : e.seg ∈ newSegs s.line := mem_newSegs.2 ⟨e, he, by
    unfold Entry.willReallyExit
    by_contra hh
    simp only [Bool.not_eq_false, Bool.and_eq_true, Option.isNone_iff_eq_none] at hh
    exact hcon hh, rfl⟩
  rw [h1] at this
  simp at this

/-- Sweep lines one after the other, from the state `s`. -/
inductive LineChain (E : Env K) (fuel : Nat) : State K → List (State K) → Prop
  | nil (s : State K) : LineChain E fuel s []
  | cons (s s' : State K) (l : List (State K)) : nextLine E fuel s = some (some s') → LineChain E fuel s' l → LineChain E fuel s (s' :: l)

theorem LineChain.heights (hs : E.Sched) (hpp : E.PP) {fuel : Nat} {s : State K} {l : List (State K)} (h : LineChain E fuel s l) :
    ∀ {yl : WithBot K}, Between E yl s → (s.ints = [] ∧ ∀ s' ∈ l, s'.ints = []) →
      (l.map State.y).Pairwise (· < ·) ∧ (∀ y ∈ l.map State.y, yl < y) ∧ ∀ y ∈ l.map State.y, y ∈ E.entrances.map Prod.fst ++ E.exits.map Prod.fst := by
  induction h with
  | nil s => intro yl _ _; simp
  | cons s s' l hn hl ih =>
    intro yl hb hi
    obtain ⟨h1, _, h2, h3⟩ := nextLine_some hs hpp hb hn
    obtain ⟨k1, k2, k3⟩ := ih h2 ⟨hi.2 s' (by simp), fun t ht => hi.2 t (by simp [ht])⟩
    refine ⟨?_, ?_, ?_⟩
    · rw [List.map_cons, List.pairwise_cons]
      exact ⟨fun y hy => WithBot.coe_lt_coe.1 (k2 y hy), k1⟩
    · intro y hy
      rcases List.mem_cons.1 hy with rfl | hy
      · exact h1
      · exact h1.trans (k2 y hy)
    · intro y hy
      rcases List.mem_cons.1 hy with rfl | hy
      · obtain ⟨hor, _⟩ := nextY_some h3
        rw [List.mem_append]
        rcases hor with ⟨p, hp, hpy⟩ | ⟨p, hp, hpy⟩ | ⟨e, he, _⟩
        · exact .inl (List.mem_map.2 ⟨p, List.mem_of_getElem? hp, hpy⟩)
        · exact .inr (List.mem_map.2 ⟨p, List.mem_of_getElem? hp, hpy⟩)
        · rw [hi.1] at he; simp at he
      · exact k3 y hy

/-- C31: if no intersection is put in the queue the sweep ends: there are at most as many lines as events. -/
theorem C31_terminates (hs : E.Sched) (hpp : E.PP) {fuel : Nat} {l : List (State K)} (h : LineChain E fuel (State.new E) l)
    (hi : ∀ s ∈ l, s.ints = []) : l.length ≤ E.entrances.length + E.exits.length := by
  obtain ⟨h1, _, h3⟩ := h.heights hs hpp (Between.init E) ⟨rfl, hi⟩
  have hn : (l.map State.y).Nodup := h1.imp fun hab => hab.ne
  have := (List.subperm_of_subset hn h3).length_le
  simpa using this

/-! ## C32: the order of the events -/

/-- C32: the order of intersection events is a strict total order with the height as the first key. -/
theorem C32_total_order : (∀ a : IEvent K, a.lt a = false) ∧ (∀ a b c : IEvent K, a.lt b = true → b.lt c = true → a.lt c = true) ∧
    (∀ a b : IEvent K, a.lt b = true ∨ a = b ∨ b.lt a = true) ∧ (∀ a b : IEvent K, a.y < b.y → a.lt b = true) ∧
    (∀ a b : IEvent K, a.lt b = true → a.y ≤ b.y) := by
  refine ⟨IEvent.lt_irrefl, fun a b c => IEvent.lt_trans, IEvent.lt_total, ?_, fun a b => IEvent.lt_y⟩
  intro a b h
  rw [IEvent.lt_iff]
  exact .inl h

/-- C32: the queue of every sweep line is sorted, so its first event is a lowest one, an event is never in it twice, and everything in
it is still to come. -/
theorem C32_queue (hs : E.Sched) (hpp : E.PP) {fuel : Nat} {s : State K} (h : Reached E fuel s) :
    s.ints.Pairwise (fun a b => a.lt b = true) ∧ s.ints.Nodup ∧ (∀ e ∈ s.ints, s.y < e.y) ∧
      ∀ e, s.ints.head? = some e → ∀ f ∈ s.ints, e.y ≤ f.y := by
  obtain ⟨hb, _⟩ := h.spec hs hpp
  refine ⟨hb.sorted, hb.sorted.imp ?_, fun e he => WithBot.coe_lt_coe.1 (hb.later e he), ?_⟩
  · rintro a b hab rfl
    rw [IEvent.lt_irrefl] at hab
    simp at hab
  · intro e he f hf
    cases hq : s.ints with
    | nil => rw [hq] at he; simp at he
    | cons g gs =>
      rw [hq] at he hf
      simp only [List.head?_cons, Option.some.injEq] at he
      subst he
      have := hb.sorted
      rw [hq] at this
      exact this.head_le f hf

/-! ## C33: the changed intervals -/

/-- C33: merging sorted intervals gives intervals that are in order and do not touch, that cover exactly the same places, and that
keep the horizontal segments with the interval they belong to. -/
theorem C33_merge_adjacent (l : List CI) (hp : l.Pairwise fun a b => a.start ≤ b.start) :
    (mergeAdjacent l).Pairwise (fun a b => a.stop < b.start) ∧
    (∀ i, (∃ c ∈ mergeAdjacent l, c.start ≤ i ∧ i < c.stop) ↔ ∃ c ∈ l, c.start ≤ i ∧ i < c.stop) ∧
    (∀ d ∈ l, ∃ c ∈ mergeAdjacent l, c.start ≤ d.start ∧ d.stop ≤ c.stop ∧
      ∀ p q, d.hz = some (p, q) → ∃ a b, c.hz = some (a, b) ∧ a ≤ p ∧ q ≤ b) ∧
    (∀ c ∈ mergeAdjacent l, ∀ a b, c.hz = some (a, b) → (∃ d ∈ l, ∃ b', d.hz = some (a, b')) ∧ ∃ d ∈ l, ∃ a', d.hz = some (a', b)) := by
  obtain ⟨gs, h1, h2, h3⟩ := mergeAdjacent_spec l hp
  have hin : ∀ d ∈ l, ∃ c ∈ mergeAdjacent l, ∃ g ∈ gs, d ∈ g ∧ IsHull g c := by
    intro d hd
    rw [← h1, List.mem_flatten] at hd
    obtain ⟨g, hg, hdg⟩ := hd
    obtain ⟨c, hc, hh⟩ := forall₂_left h2 hg
    exact ⟨c, hc, g, hg, hdg, hh⟩
  have hout : ∀ c ∈ mergeAdjacent l, ∃ g, (∀ d ∈ g, d ∈ l) ∧ IsHull g c := by
    intro c hc
    obtain ⟨g, hg, hh⟩ := forall₂_right h2 hc
    refine ⟨g, fun d hd => ?_, hh⟩
    rw [← h1, List.mem_flatten]
    exact ⟨g, hg, hd⟩
  refine ⟨h3, ?_, ?_, ?_⟩
  · intro i
    constructor
    · rintro ⟨c, hc, a, b⟩
      obtain ⟨g, hg, hh⟩ := hout c hc
      obtain ⟨d, hd, hi⟩ := hh.cover i a b
      exact ⟨d, hg d hd, hi⟩
    · rintro ⟨d, hd, a, b⟩
      obtain ⟨c, hc, g, _, hdg, hh⟩ := hin d hd
      have := hh.sub d hdg
      exact ⟨c, hc, by omega, by omega⟩
  · intro d hd
    obtain ⟨c, hc, g, _, hdg, hh⟩ := hin d hd
    exact ⟨c, hc, (hh.sub d hdg).1, (hh.sub d hdg).2, fun p q hpq => hh.hzSub d hdg p q hpq⟩
  · intro c hc a b hab
    obtain ⟨g, hg, hh⟩ := hout c hc
    obtain ⟨d, hd, x⟩ := hh.hzFst a b hab
    obtain ⟨d', hd', x'⟩ := hh.hzSnd a b hab
    exact ⟨⟨d, hg d hd, x⟩, d', hg d' hd', x'⟩

/-- C33: the changed intervals of a sweep line are in order, do not touch and lie on the line; every entry that enters, leaves, continues
or has been moved is in one of them, and so is every horizontal segment, with exactly one of them. -/
theorem C33_changed_intervals (hs : E.Sched) (hpp : E.PP) {fuel : Nat} {s : State K} (h : Reached E fuel s) :
    s.chg.Pairwise (fun a b => a.stop < b.start) ∧ (∀ c ∈ s.chg, c.start ≤ c.stop ∧ c.stop ≤ s.line.length) ∧
    (∀ (i : Nat) (e : Entry), s.line[i]? = some e → (e.enter = true ∨ e.exit = true ∨ e.oldSeg ≠ none ∨ e.oldIdx ≠ none) →
      ∃ c ∈ s.chg, c.start ≤ i ∧ i < c.stop) ∧
    ∀ k, k < s.horiz.length → ∃ c ∈ s.chg, (∃ a b, c.hz = some (a, b) ∧ a ≤ k ∧ k < b) ∧
      ∀ d ∈ s.chg, (∃ a b, d.hz = some (a, b) ∧ a ≤ k ∧ k < b) → d = c := by
  obtain ⟨_, S0, M, L, hF⟩ := h.spec hs hpp
  refine ⟨hF.chg.sep, hF.chg.bound, ?_, ?_⟩
  · intro i e he hor
    refine hF.done.flags i e he ?_
    tauto
  · intro k hk
    obtain ⟨c, hc, a, b, h1, h2, h3, _⟩ := hF.chg.hzSpan k _ (List.getElem?_eq_getElem hk)
    refine ⟨c, hc, ⟨a, b, h1, h2, h3⟩, ?_⟩
    rintro d hd ⟨a', b', h1', h2', h3'⟩
    rcases pairwise_or hF.chg.hzOrd hd hc with h | h | h
    · exact h
    · have := h _ _ _ _ h1' h1; omega
    · have := h _ _ _ _ h1 h1'; omega

theorem places_core (k : Nat) (l : List Entry) : (places k l).map (fun p => p.2.core) = l.map Entry.core := by
  induction l generalizing k with
  | nil => rfl
  | cons e l ih => rw [places, List.map_cons, List.map_cons, ih]; rfl

theorem Finished.slice_core {S0 : List Nat} {M L : List Entry} {s' : State K} (hF : Finished E S0 M L s') {c : CI} (hc : c ∈ s'.chg) :
    (((s'.line.drop c.start).take (c.stop - c.start)).map fun e => (e.seg, e.enter, e.exit, e.oldSeg)).Perm
        (((M.drop c.start).take (c.stop - c.start)).map fun e => (e.seg, e.enter, e.exit, e.oldSeg)) := by
  have hbd := hF.chg.bound c hc
  have hsl := hF.chg.same.len
  obtain ⟨c1, c2⟩ := hF.chg.cut hc
  have p1 := (places_slice hF.move hbd.1 (by omega) c1 c2).map fun p : Nat × Entry => p.2.core
  rw [places_core, places_core] at p1
  have p2 : (slice s'.line c).map Entry.core = (slice L c).map Entry.core := by
    have := hF.chg.same.core_map
    unfold slice
    rw [List.map_take, List.map_drop, this, ← List.map_drop, ← List.map_take]
  rw [← p2] at p1
  have p3 := p1.map fun e : Entry => (e.seg, e.enter, e.exit, e.oldSeg)
  rw [List.map_map, List.map_map] at p3
  exact p3

theorem Finished.old_filter {M L : List Entry} {s s' : State K} (hF : Finished E (newSegs s.line) M L s') :
    M.filterMap (fun e => if e.enter then e.oldSeg else some e.seg) = (s.line.filter fun e => !(e.exit && e.oldSeg.isNone)).map Entry.seg := by
  have h1 := hF.old
  unfold oldSegs at h1
  have h2 := congrArg (List.map Entry.seg) (newSegs_filter s.line)
  rw [List.map_map, List.map_map] at h2
  have h3 : (Entry.seg ∘ Entry.new : Nat → Nat) = id := rfl
  rw [h3, List.map_id] at h2
  exact h1.trans h2.symm

/-- C33: the line changes only inside the changed intervals. There is a line `M` on which the segments of the line above are in the order
they had, such that outside of the changed intervals `M` and the new line have the same segments at the same places, none of them
entering or leaving, and in each interval the entries of the new line are a reordering of the entries of `M` in the same interval. -/
theorem C33_unchanged (hs : E.Sched) (hpp : E.PP) {fuel : Nat} {s s' : State K} (h : s = State.new E ∨ Reached E fuel s)
    (hn : nextLine E fuel s = some (some s')) :
    ∃ M : List Entry, M.length = s'.line.length ∧
      M.filterMap (fun e => if e.enter then e.oldSeg else some e.seg) = (s.line.filter fun e => !(e.exit && e.oldSeg.isNone)).map Entry.seg ∧
      (∀ i, (¬ ∃ c ∈ s'.chg, c.start ≤ i ∧ i < c.stop) → (s'.line[i]?).map Entry.seg = (M[i]?).map Entry.seg ∧
        ∀ e, s'.line[i]? = some e → e.enter = false ∧ e.exit = false ∧ e.oldSeg = none) ∧
      ∀ c ∈ s'.chg, (((s'.line.drop c.start).take (c.stop - c.start)).map fun e => (e.seg, e.enter, e.exit, e.oldSeg)).Perm
        (((M.drop c.start).take (c.stop - c.start)).map fun e => (e.seg, e.enter, e.exit, e.oldSeg)) := by
  have hb : ∃ yl, Between E yl s := by
    rcases h with rfl | h
    · exact ⟨⊥, Between.init E⟩
    · exact ⟨_, (h.spec hs hpp).1⟩
  obtain ⟨yl, hb⟩ := hb
  obtain ⟨_, ⟨M, L, hF⟩, _, _⟩ := nextLine_some hs hpp hb hn
  have hlen : M.length = s'.line.length := by
    have := hF.move.len
    have := hF.chg.same.len
    omega
  refine ⟨M, hlen, ?_, ?_, ?_⟩
  · exact hF.old_filter
  · intro i hi
    constructor
    · cases he : s'.line[i]? with
      | none =>
        have := List.getElem?_eq_none_iff.1 he
        rw [List.getElem?_eq_none (by omega)]
      | some e =>
        obtain ⟨f, hf, hc, _⟩ := hF.uncovered hi he
        rw [hf]
        simp only [Entry.core, Entry.mk.injEq] at hc
        simp [hc.1]
    · intro e he
      obtain ⟨f, _, _, _, h1, h2, h3⟩ := hF.uncovered hi he
      exact ⟨h1, h2, h3⟩
  · exact fun c hc => hF.slice_core hc

/-! ## C34: positions -/

/-- C34: the positions given to one range of a sweep line. Every event belongs to a segment that reaches this height: an event that is not
connected above (below) is at exactly the start (end) of its segment. From left to right in the order above the line the positions
`x0` never decrease, and in the order below the line the positions `x1` never decrease. -/
theorem C34_ordered (hs : E.Sched) (hpp : E.PP) (hE : E.Exact) {fuel : Nat} {s : State K} (h : Reached E fuel s) {c : CI} (hc : c ∈ s.chg)
    {buf buf' : List Entry} {evs : List (OutputEvent K)} (hr : nextRange E s buf c = some (buf', evs)) :
    (∀ e ∈ evs, e.segIdx ∈ E.entrances.map Prod.snd ∧
      (if e.connectedAbove then E.startY e.segIdx < s.y else E.startY e.segIdx = s.y ∧ e.x0 = E.startX e.segIdx) ∧
      (if e.connectedBelow then s.y < E.endY e.segIdx else E.endY e.segIdx = s.y ∧ e.x1 = E.endX e.segIdx)) ∧
    (∃ below : List (OutputEvent K), below.Perm (evs.filter fun e => e.connectedBelow) ∧
      below.map OutputEvent.segIdx = (((s.line.drop c.start).take (c.stop - c.start)).filter fun e => !(e.exit && e.oldSeg.isNone)).map Entry.seg ∧
      below.Pairwise fun a b => a.x1 ≤ b.x1) ∧
    (∃ above : List (OutputEvent K), above.Perm (evs.filter fun e => e.connectedAbove) ∧
      (∀ e ∈ above, ∃ o, e.oldSweepIdx = some o ∧ c.start ≤ o ∧ o < c.stop) ∧
      (above.Pairwise fun a b => a.oldSweepIdx.getD 0 < b.oldSweepIdx.getD 0) ∧ above.Pairwise fun a b => a.x0 ≤ b.x0) ∧
    evs.Pairwise fun a b => min a.x0 a.x1 ≤ min b.x0 b.x1 := by
  obtain ⟨_, S0, M, L, hF⟩ := h.spec hs hpp
  obtain ⟨T, To, hT⟩ := nextRange_tags hF hE hc hr
  have hR := hT.rangeSpec (W := Int) hF (fun _ => 0) (by intro x; simp)
  refine ⟨?_, ?_, ?_, ?_⟩
  · intro e he
    have := hT.evOk hF e he
    refine ⟨this.mem, ?_, ?_⟩
    · split_ifs with h1
      · exact this.above h1
      · exact this.starts (by simpa using h1)
    · split_ifs with h1
      · exact this.below h1
      · exact this.stops (by simpa using h1)
  · refine ⟨evNew T, ?_, ?_, ?_⟩
    · exact hR.news
    · rw [hT.new_segs hF]
      have h2 := congrArg (List.map Entry.seg) (newSegs_filter (slice s.line c))
      rw [List.map_map, List.map_map] at h2
      have h3 : (Entry.seg ∘ Entry.new : Nat → Nat) = id := rfl
      rw [h3, List.map_id] at h2
      exact h2.symm
    · exact hR.newX
  · refine ⟨evOld To, hR.olds, ?_, hR.oldIdx, hR.oldX⟩
    intro e he
    obtain ⟨t, ht, hte⟩ := List.mem_filterMap.1 he
    obtain ⟨rfl, _⟩ := oldEv_mem hte
    obtain ⟨k, hk⟩ := List.mem_iff_getElem?.1 ht
    rw [(hT.ok t (hT.perm.mem_iff.1 ht)).oldIdx, hT.oldPlace k t hk]
    have h1 : To.length = c.stop - c.start := by
      rw [hT.perm.length_eq]
      have := congrArg List.length hT.places
      simpa using this
    have h2 := (List.getElem?_eq_some_iff.1 hk).1
    exact ⟨_, rfl, by omega, by omega⟩
  · exact hT.sorted

/-- If the segments of the range are in order up to their error intervals, every position lies in the error interval of its segment. -/
theorem Finished.within {S0 : List Nat} {M L : List Entry} {s' : State K} (hF : Finished E S0 M L s') (hE : E.Exact) {c : CI} (hc : c ∈ s'.chg)
    {buf buf' : List Entry} {evs : List (OutputEvent K)} (hr : nextRange E s' buf c = some (buf', evs))
    (ho : EpsOrd E s'.y ((slice M c).map Entry.oldSegId)) (hn' : EpsOrd E s'.y ((slice s'.line c).map Entry.seg)) :
    ∀ e ∈ evs, E.startY e.segIdx < E.endY e.segIdx →
      (E.lower e.segIdx s'.y ≤ e.x0 ∧ e.x0 ≤ E.upper e.segIdx s'.y) ∧ (E.lower e.segIdx s'.y ≤ e.x1 ∧ e.x1 ≤ E.upper e.segIdx s'.y) := by
  obtain ⟨T, To, hT⟩ := nextRange_tags hF hE hc hr
  intro e he hlt
  have hev := hT.evOk hF e he
  have hh : E.isHorizontal e.segIdx = false := by simp [Env.isHorizontal, hlt.ne]
  have hex := hE e.segIdx hev.mem hh
  rcases List.mem_append.1 (hT.events.mem_iff.1 he) with hm | hm
  swap
  · obtain ⟨x, hx, rfl⟩ := List.mem_map.1 hm
    have := (hF.horiz x).1 ((horizOf_sublist s' c).subset hx)
    change E.isHorizontal x = false at hh
    rw [hh] at this
    simp at this
  obtain ⟨t, ht, hm⟩ := List.mem_flatMap.1 hm
  have hok := hT.ok t ht
  have hk := (hT.kind hF t ht).2.2
  have hoM : t.e.oldSegId ∈ (slice M c).map Entry.oldSegId := by
    have h1 : t.e.core ∈ To.map (fun t => t.e.core) := List.mem_map.2 ⟨t, hT.perm.mem_iff.2 ht, rfl⟩
    rw [hT.old] at h1
    obtain ⟨f, hf, hfe⟩ := List.mem_map.1 h1
    refine List.mem_map.2 ⟨f, hf, ?_⟩
    simp only [Entry.core, Entry.mk.injEq] at hfe
    unfold Entry.oldSegId
    rw [hfe.1, hfe.2.2.2.2.2]
  have hnM : t.e.seg ∈ (slice s'.line c).map Entry.seg := List.mem_map_of_mem (hT.kind hF t ht).1
  unfold Tag.events at hm
  rcases List.mem_cons.1 hm with rfl | hm
  · have hseg := hok.seg
    constructor
    · by_cases ha : t.main.connectedAbove = true
      · rw [hok.x0 ha, hseg]; exact hT.x0In ho t ht
      · have ha' : t.main.connectedAbove = false := by simpa using ha
        rw [(hev.starts ha').2, ← hex.1, (hev.starts ha').1, hseg]
        exact ho.mid _ hoM
    · by_cases ha : t.main.connectedBelow = true
      · have hsg : t.e.oldSegId = t.e.seg := by
          have h1 := hok.below
          rw [ha] at h1
          have hx : t.e.exit = false := by simpa using h1.symm
          have : t.e.oldSeg = none := by
            by_contra hcon
            have := (hk.exitOf hcon).1
            rw [hx] at this; simp at this
          unfold Entry.oldSegId
          rw [this]; rfl
        rw [hok.x1 ha, hseg, hsg]; exact hT.x1In hn' t ht
      · have ha' : t.main.connectedBelow = false := by simpa using ha
        rw [(hev.stops ha').2, ← hex.2, (hev.stops ha').1, hseg]
        exact ho.mid _ hoM
  · have hone : t.e.oldSeg ≠ none := by
      intro hcon
      rw [hok.noExtra hcon] at hm
      simp at hm
    obtain ⟨ev, q1, q2, q3, q4, q5, q6, q7⟩ := hok.extra hone
    rw [q1, Option.toList_some, List.mem_singleton] at hm
    subst hm
    constructor
    · rw [(hev.starts q3).2, ← hex.1, (hev.starts q3).1, q2]
      exact hn'.mid _ hnM
    · rw [q7, q2]; exact hT.x1In hn' t ht

/-- C34: if the segments of the range are in order up to their error intervals, above and below the line, every position lies in the
error interval of its segment. -/
theorem C34_within_error (hs : E.Sched) (hpp : E.PP) (hE : E.Exact) {fuel : Nat} {s s' : State K} (h : s = State.new E ∨ Reached E fuel s)
    (hn : nextLine E fuel s = some (some s')) {c : CI} (hc : c ∈ s'.chg)
    {buf buf' : List Entry} {evs : List (OutputEvent K)} (hr : nextRange E s' buf c = some (buf', evs)) :
    ∃ M : List Entry,
      M.filterMap (fun e => if e.enter then e.oldSeg else some e.seg) = (s.line.filter fun e => !(e.exit && e.oldSeg.isNone)).map Entry.seg ∧
      (((s'.line.drop c.start).take (c.stop - c.start)).map fun e => (e.seg, e.enter, e.exit, e.oldSeg)).Perm
        (((M.drop c.start).take (c.stop - c.start)).map fun e => (e.seg, e.enter, e.exit, e.oldSeg)) ∧
      (EpsOrd E s'.y (((M.drop c.start).take (c.stop - c.start)).map fun e => e.oldSeg.getD e.seg) →
        EpsOrd E s'.y (((s'.line.drop c.start).take (c.stop - c.start)).map Entry.seg) →
        ∀ e ∈ evs, E.startY e.segIdx < E.endY e.segIdx →
          (E.lower e.segIdx s'.y ≤ e.x0 ∧ e.x0 ≤ E.upper e.segIdx s'.y) ∧ (E.lower e.segIdx s'.y ≤ e.x1 ∧ e.x1 ≤ E.upper e.segIdx s'.y)) := by
  have hb : ∃ yl, Between E yl s := by
    rcases h with rfl | h
    · exact ⟨⊥, Between.init E⟩
    · exact ⟨_, (h.spec hs hpp).1⟩
  obtain ⟨yl, hb⟩ := hb
  obtain ⟨_, ⟨M, L, hF⟩, _, _⟩ := nextLine_some hs hpp hb hn
  refine ⟨M, hF.old_filter, hF.slice_core hc, ?_⟩
  exact fun ho hn' => hF.within hE hc hr ho hn'

end Verif.Sweep
