import Verif.Sweep.Accurate
import Verif.Sweep.TotalMono
import Verif.Range.Props

/-!
# The callback interface `sweep::sweep` (C99)

`sweep` runs the sweep line and hands every piece of every segment to a callback, with its height. The model returns the list of the calls.
-/

namespace Verif.Sweep
open Verif.Curve Verif.Range Verif.Topo
set_option linter.unusedSectionVars false

variable {K : Type} [LinearOrder K]

/-! ## Model -/

/-- sweep/mod.rs:24-31: the calls on one sweep line, range by range (the inner loops). The buffer is the one left behind by the range before. -/
def lineEvents (E : Env K) (s : State K) : List CI → List Entry → Option (List Entry × List (K × OutputEvent K))
  | [], buf => some (buf, [])
  | c :: cs, buf =>
    match nextRange E s buf c with
    | none => none
    | some (buf, evs) =>
      match (SLRange.new evs).runEvents with
      | none => none
      | some bs =>
        match lineEvents E s cs buf with
        | none => none
        | some (buf, out) => some (buf, bs.flatten.map (fun e => (s.y, e)) ++ out)

/-- sweep/mod.rs:22-32: the loop over the sweep lines. -/
def sweepEvents (E : Env K) (fuel2 : Nat) : Nat → State K → List Entry → Option (List (K × OutputEvent K))
  | 0, _, _ => none
  | fuel + 1, s, buf =>
    match nextLine E fuel2 s with
    | none => none
    | some none => some []
    | some (some s) =>
      match lineEvents E s s.chg buf with
      | none => none
      | some (buf, out) =>
        match sweepEvents E fuel2 fuel s buf with
        | none => none
        | some rest => some (out ++ rest)

/-- sweep/mod.rs:19-33 (`sweep`): the calls of the callback, in order. -/
def callbacks (E : Env K) (fuel2 fuel : Nat) : Option (List (K × OutputEvent K)) := sweepEvents E fuel2 fuel (State.new E) []

/-! ## Specification -/

/-- The calls for one segment. -/
def callsOf (a : Nat) (out : List (K × OutputEvent K)) : List (K × OutputEvent K) := out.filter fun q => decide (q.2.segIdx = a)

/-- A segment stops at a height `y`: it comes in at `e.x0` and goes on at `e.x1`. `calls` is what the callback is told about it. -/
structure Stop (K : Type) where
  y : K
  e : OutputEvent K
  calls : List (OutputEvent K)

/-- The calls tell the whole stop: one call if the segment does not move sideways, otherwise consecutive pieces from left to right which cover the stretch
between `e.x0` and `e.x1`. -/
def Stop.Told (v : Stop K) : Prop :=
  (v.e.x0 = v.e.x1 → v.calls = [v.e]) ∧ (v.e.x0 ≠ v.e.x1 → Tiling v.e v.e.smallerX v.e.largerX v.calls)

/-- The callback is told the way of the segment `a` from its start to its end: it is told about stops at increasing heights; the first is at the
start, exactly, the last at the end, exactly; all but the first are connected to something above, all but the last to something below. -/
structure Walk (E : Env K) (a : Nat) (out : List (K × OutputEvent K)) (vs : List (Stop K)) : Prop where
  calls : callsOf a out = vs.flatMap fun v => v.calls.map fun e => (v.y, e)
  told : ∀ v ∈ vs, v.e.segIdx = a ∧ v.Told
  down : vs.Pairwise fun v w => v.y < w.y
  first : ∃ v l, vs = v :: l ∧ v.y = E.startY a ∧ v.e.x0 = E.startX a ∧ v.e.connectedAbove = false ∧ ∀ w ∈ l, w.e.connectedAbove = true
  last : ∃ l v, vs = l ++ [v] ∧ v.y = E.endY a ∧ v.e.x1 = E.endX a ∧ v.e.connectedBelow = false ∧ ∀ w ∈ l, w.e.connectedBelow = true

/-! ## Proofs -/

variable {E : Env K}

section
variable {S0 : List Nat} {M L : List Entry} {s : State K}

/-- The calls of one range. -/
theorem range_told (hF : Finished E S0 M L s) (hE : E.Exact) {c : CI} (hc : c ∈ s.chg) {buf buf' : List Entry} {evs : List (OutputEvent K)}
    (hr : nextRange E s buf c = some (buf', evs)) :
    ∃ bs, (SLRange.new evs).runEvents = some bs ∧ (∀ p ∈ bs.flatten, p.segIdx ∈ rangeSegs s c) ∧
      ∀ a ∈ rangeSegs s c, ∃ e ∈ evs, e.segIdx = a ∧ EvOk E s.y e ∧ Stop.Told ⟨s.y, e, bs.flatten.filter fun p => decide (p.segIdx = a)⟩ := by
  obtain ⟨T, To, hT⟩ := nextRange_tags hF hE hc hr
  have hperm := hT.seg_perm hF
  obtain ⟨bs, xs, h1, -, h3, h4⟩ := C37_tiles evs hT.sorted (hperm.nodup_iff.2 (hF.range_nodup c))
  refine ⟨bs, h1, ?_, ?_⟩
  · intro p hp
    obtain ⟨b, hb, hpb⟩ := List.mem_flatten.1 hp
    obtain ⟨e, he, hpe⟩ := h4 b hb p hpb
    rw [hpe]
    exact hperm.mem_iff.1 (List.mem_map_of_mem he)
  · intro a ha
    obtain ⟨e, he, rfl⟩ := List.mem_map.1 (hperm.mem_iff.2 ha)
    exact ⟨e, he, rfl, hT.evOk hF e he, h3 e he⟩

theorem callsOf_map (a : Nat) (y : K) (l : List (OutputEvent K)) :
    callsOf a (l.map fun e => (y, e)) = (l.filter fun p => decide (p.segIdx = a)).map fun e => (y, e) := by
  unfold callsOf
  rw [List.filter_map]
  rfl

theorem callsOf_append (a : Nat) (l l' : List (K × OutputEvent K)) : callsOf a (l ++ l') = callsOf a l ++ callsOf a l' := List.filter_append ..

/-- The calls of one line. -/
theorem lineEvents_told (hF : Finished E S0 M L s) (hE : E.Exact) (cs : List CI) : ∀ {pre : List CI} (_ : s.chg = pre ++ cs)
    {buf buf' : List Entry} {out : List (K × OutputEvent K)} (_ : lineEvents E s cs buf = some (buf', out)),
    (∀ q ∈ out, q.1 = s.y) ∧ ∀ a,
      ((∀ c ∈ cs, a ∉ rangeSegs s c) → callsOf a out = []) ∧
      ((∃ c ∈ cs, a ∈ rangeSegs s c) → ∃ v : Stop K, v.y = s.y ∧ v.e.segIdx = a ∧ v.Told ∧ EvOk E s.y v.e ∧ FromRange E s v.e ∧
        callsOf a out = v.calls.map fun e => (s.y, e)) := by
  induction cs with
  | nil =>
    intro pre _ buf buf' out h
    simp only [lineEvents, Option.some.injEq, Prod.mk.injEq] at h
    obtain ⟨-, rfl⟩ := h
    exact ⟨by simp, fun a => ⟨fun _ => rfl, by simp⟩⟩
  | cons c cs ih =>
    intro pre hpre buf buf' out h
    simp only [lineEvents] at h
    split at h
    · simp at h
    rename_i buf1 evs hnr
    split at h
    · simp at h
    rename_i bs hbs
    split at h
    · simp at h
    rename_i buf2 out1 hrest
    simp only [Option.some.injEq, Prod.mk.injEq] at h
    obtain ⟨-, rfl⟩ := h
    have hc : c ∈ s.chg := by rw [hpre]; simp
    obtain ⟨bs', k1, k2, k3⟩ := range_told hF hE hc hnr
    obtain rfl : bs = bs' := by rw [hbs] at k1; simpa using k1
    obtain ⟨i1, i2⟩ := ih (pre := pre ++ [c]) (by rw [hpre]; simp) hrest
    refine ⟨?_, fun a => ⟨?_, ?_⟩⟩
    · intro q hq
      rcases List.mem_append.1 hq with hq | hq
      · obtain ⟨e, _, rfl⟩ := List.mem_map.1 hq
        rfl
      · exact i1 q hq
    · intro hno
      rw [callsOf_append, (i2 a).1 fun d hd => hno d (by simp [hd]), List.append_nil, callsOf_map]
      rw [List.filter_eq_nil_iff.2, List.map_nil]
      intro p hp
      rw [decide_eq_true_eq]
      intro hpa
      exact hno c (by simp) (hpa ▸ k2 p hp)
    · intro hin
      by_cases hac : a ∈ rangeSegs s c
      · obtain ⟨e, e1, e2, e3, e4⟩ := k3 a hac
        have hno : ∀ d ∈ cs, a ∉ rangeSegs s d := by
          intro d hd had
          have hsep := hF.chg.sep
          rw [hpre, List.pairwise_append, List.pairwise_cons] at hsep
          have := hsep.2.1.1 d hd
          have hb := hF.chg.bound c hc
          have hcd := rangeSegs_disjoint hF hc (show d ∈ s.chg by rw [hpre]; simp [hd]) hac had
          subst hcd
          omega
        refine ⟨⟨s.y, e, bs.flatten.filter fun p => decide (p.segIdx = a)⟩, rfl, e2, e4, e3, ⟨c, hc, buf, buf1, evs, hnr, e1⟩, ?_⟩
        rw [callsOf_append, (i2 a).1 hno, List.append_nil, callsOf_map]
      · obtain ⟨v, v1, v2, v3, v4, v5, v6⟩ := (i2 a).2 (by
          obtain ⟨d, hd, had⟩ := hin
          rcases List.mem_cons.1 hd with rfl | hd
          · exact absurd had hac
          · exact ⟨d, hd, had⟩)
        refine ⟨v, v1, v2, v3, v4, v5, ?_⟩
        rw [callsOf_append, v6, callsOf_map, List.filter_eq_nil_iff.2, List.map_nil, List.nil_append]
        intro p hp
        rw [decide_eq_true_eq]
        intro hpa
        exact hac (hpa ▸ k2 p hp)

theorem lineEvents_segs (hF : Finished E S0 M L s) (hE : E.Exact) {buf buf' : List Entry} {out : List (K × OutputEvent K)}
    (h : lineEvents E s s.chg buf = some (buf', out)) : ∀ q ∈ out, q.2.segIdx ∈ E.segs := by
  obtain ⟨-, h2⟩ := lineEvents_told hF hE s.chg (pre := []) rfl h
  intro q hq
  have hm : q ∈ callsOf q.2.segIdx out := by
    unfold callsOf
    rw [List.mem_filter]
    exact ⟨hq, by simp⟩
  by_cases hin : ∃ c ∈ s.chg, q.2.segIdx ∈ rangeSegs s c
  · obtain ⟨v, -, v2, -, v4, -⟩ := (h2 q.2.segIdx).2 hin
    rw [← v2]
    exact v4.mem
  · rw [(h2 q.2.segIdx).1 fun c hc ha => hin ⟨c, hc, ha⟩] at hm
    simp at hm

end

/-- Nothing starts or ends between two lines. -/
theorem nothing_between (hs : E.Sched) {yl : WithBot K} {s : State K} {y : K} (hB : Between E yl s) (hny : nextY E s = some y) {z : K}
    (h1 : z ≤ y) (h2 : yl < z) {a : Nat} (ha : a ∈ E.segs) (hz : E.startY a = z ∨ E.endY a = z) : z = y := by
  obtain ⟨_, n2, n3, _⟩ := nextY_some hny
  refine le_antisymm h1 ?_
  have hst : (E.startY a : WithBot K) > yl → y ≤ E.startY a := by
    intro hgt
    obtain ⟨p, hp, rfl⟩ := List.mem_map.1 ha
    rw [← hs.enter_y p hp] at hgt ⊢
    exact hB.enter.head hs.enter_sorted n2 hp hgt
  rcases hz with rfl | rfl
  · exact hst h2
  · by_cases hh : E.isHorizontal a = true
    · unfold Env.isHorizontal at hh
      rw [decide_eq_true_eq] at hh
      rw [← hh] at h2 ⊢
      exact hst h2
    · obtain ⟨p, hp, rfl⟩ := List.mem_map.1 ((hs.exit_mem a).2 ⟨ha, by simpa using hh⟩)
      rw [← hs.exit_y p hp] at h2 ⊢
      exact hB.exit.head hs.exit_sorted n3 hp h2

/-- The calls below the height `yl`. -/
structure Rest (E : Env K) (fuel : Nat) (yl : WithBot K) (a : Nat) (out : List (K × OutputEvent K)) (vs : List (Stop K)) : Prop where
  calls : callsOf a out = vs.flatMap fun v => v.calls.map fun e => (v.y, e)
  told : ∀ v ∈ vs, v.e.segIdx = a ∧ v.Told ∧ EvOk E v.y v.e ∧ Emitted E fuel v.y v.e
  down : vs.Pairwise fun v w => v.y < w.y
  below : ∀ v ∈ vs, yl < v.y
  first : yl < E.startY a → ∃ v ∈ vs, v.y = E.startY a
  last : yl < E.endY a → ∃ v ∈ vs, v.y = E.endY a

theorem sweepEvents_spec (hs : E.Sched) (hE : E.Exact) (hpp : E.PP) {fuel2 : Nat} (fuel : Nat) : ∀ {yl : WithBot K} {s : State K} {buf : List Entry}
    {out : List (K × OutputEvent K)}, Between E yl s → (s = State.new E ∨ Reached E fuel2 s) → sweepEvents E fuel2 fuel s buf = some out →
    (out.Pairwise fun p q => p.1 ≤ q.1) ∧ (∀ q ∈ out, yl < q.1 ∧ q.2.segIdx ∈ E.segs) ∧ ∀ a ∈ E.segs, ∃ vs, Rest E fuel2 yl a out vs := by
  induction fuel with
  | zero => intro yl s buf out _ _ h; simp [sweepEvents] at h
  | succ fuel ih =>
    intro yl s buf out hB hreach h
    simp only [sweepEvents] at h
    split at h
    · simp at h
    · rename_i hn
      simp only [Option.some.injEq] at h
      subst h
      obtain ⟨-, h2⟩ := nextLine_none hs hB hn
      refine ⟨.nil, by simp, fun a ha => ⟨[], rfl, by simp, .nil, by simp, fun h => ?_, fun h => ?_⟩⟩
      · exact absurd (h2 a ha).1 (not_le.2 h)
      · exact absurd (h2 a ha).2 (not_le.2 h)
    · rename_i s1 hn
      obtain ⟨hy, ⟨M, L, hF⟩, hB1, hny⟩ := nextLine_some hs hpp hB hn
      have hr1 : Reached E fuel2 s1 := by
        rcases hreach with rfl | hr
        · exact .first _ hn
        · exact .next _ _ hr hn
      split at h
      · simp at h
      rename_i buf1 out1 hl
      split at h
      · simp at h
      rename_i out2 hrest
      simp only [Option.some.injEq] at h
      subst h
      obtain ⟨l1, l2⟩ := lineEvents_told hF hE s1.chg (pre := []) rfl hl
      have lseg := lineEvents_segs hF hE hl
      obtain ⟨i1, i2, i3⟩ := ih hB1 (.inr hr1) hrest
      refine ⟨?_, ?_, ?_⟩
      · rw [List.pairwise_append]
        refine ⟨?_, i1, ?_⟩
        · exact List.pairwise_of_forall_mem_list fun p hp q hq => (l1 p hp).le.trans (l1 q hq).ge
        · intro p hp q hq
          rw [l1 p hp]
          exact (WithBot.coe_lt_coe.1 (i2 q hq).1).le
      · intro q hq
        rcases List.mem_append.1 hq with hq | hq
        · refine ⟨?_, lseg q hq⟩
          rw [l1 q hq]
          exact hy
        · exact ⟨hy.trans (i2 q hq).1, (i2 q hq).2⟩
      · intro a ha
        obtain ⟨vs, r⟩ := i3 a ha
        by_cases hin : ∃ c ∈ s1.chg, a ∈ rangeSegs s1 c
        · obtain ⟨v, v1, v2, v3, v4, v5, v6⟩ := (l2 a).2 hin
          refine ⟨v :: vs, ?_, ?_, ?_, ?_, ?_, ?_⟩
          · rw [callsOf_append, v6, r.calls, List.flatMap_cons, v1]
          · intro w hw
            rcases List.mem_cons.1 hw with rfl | hw
            · exact ⟨v2, v3, by rw [v1]; exact v4, s, s1, hreach, hn, v1.symm, v5⟩
            · exact r.told w hw
          · rw [List.pairwise_cons]
            exact ⟨fun w hw => by rw [v1]; exact WithBot.coe_lt_coe.1 (r.below w hw), r.down⟩
          · intro w hw
            rcases List.mem_cons.1 hw with rfl | hw
            · rw [v1]; exact hy
            · exact hy.trans (r.below w hw)
          · intro hlt
            rcases le_or_gt (E.startY a) s1.y with hle | hgt
            · have := nothing_between hs hB hny hle hlt ha (.inl rfl)
              exact ⟨v, by simp, by rw [v1, this]⟩
            · obtain ⟨w, w1, w2⟩ := r.first (WithBot.coe_lt_coe.2 hgt)
              exact ⟨w, by simp [w1], w2⟩
          · intro hlt
            rcases le_or_gt (E.endY a) s1.y with hle | hgt
            · have := nothing_between hs hB hny hle hlt ha (.inr rfl)
              exact ⟨v, by simp, by rw [v1, this]⟩
            · obtain ⟨w, w1, w2⟩ := r.last (WithBot.coe_lt_coe.2 hgt)
              exact ⟨w, by simp [w1], w2⟩
        · have hno := (l2 a).1 fun c hc hac => hin ⟨c, hc, hac⟩
          refine ⟨vs, ?_, r.told, r.down, fun w hw => hy.trans (r.below w hw), ?_, ?_⟩
          · rw [callsOf_append, hno, List.nil_append, r.calls]
          · intro hlt
            rcases le_or_gt (E.startY a) s1.y with hle | hgt
            · have := nothing_between hs hB hny hle hlt ha (.inl rfl)
              exact absurd (hF.covers hs ha (.inl ⟨rfl, this⟩)) hin
            · exact r.first (WithBot.coe_lt_coe.2 hgt)
          · intro hlt
            rcases le_or_gt (E.endY a) s1.y with hle | hgt
            · have := nothing_between hs hB hny hle hlt ha (.inr rfl)
              exact absurd (hF.covers hs ha (.inr ⟨rfl, this⟩)) hin
            · exact r.last (WithBot.coe_lt_coe.2 hgt)

/-- The stops at the ends of the segment are the first and the last. -/
theorem Rest.walk {fuel : Nat} {a : Nat} {out : List (K × OutputEvent K)} {vs : List (Stop K)} (r : Rest E fuel ⊥ a out vs) : Walk E a out vs := by
  have hlo : ∀ v ∈ vs, E.startY a ≤ v.y ∧ v.y ≤ E.endY a ∧ (v.e.connectedAbove = false ↔ v.y = E.startY a) ∧ (v.e.connectedBelow = false ↔ v.y = E.endY a) ∧
      (v.y = E.startY a → v.e.x0 = E.startX a) ∧ (v.y = E.endY a → v.e.x1 = E.endX a) := by
    intro v hv
    obtain ⟨rfl, -, h, -⟩ := r.told v hv
    refine ⟨?_, ?_, ⟨fun hc => (h.starts hc).1.symm, fun hc => ?_⟩, ⟨fun hc => (h.stops hc).1.symm, fun hc => ?_⟩, fun hc => ?_, fun hc => ?_⟩
    · cases hc : v.e.connectedAbove with
      | false => exact (h.starts hc).1.le
      | true => exact (h.above hc).le
    · cases hc : v.e.connectedBelow with
      | false => exact (h.stops hc).1.ge
      | true => exact (h.below hc).le
    all_goals
      first
      | cases hd : v.e.connectedAbove with
        | false => first | rfl | exact (h.starts hd).2
        | true => exact absurd (h.above hd) (by rw [hc]; exact lt_irrefl _)
      | cases hd : v.e.connectedBelow with
        | false => first | rfl | exact (h.stops hd).2
        | true => exact absurd (h.below hd) (by rw [hc]; exact lt_irrefl _)
  refine ⟨r.calls, fun v hv => ⟨(r.told v hv).1, (r.told v hv).2.1⟩, r.down, ?_, ?_⟩
  · obtain ⟨v, hv, hvy⟩ := r.first (WithBot.bot_lt_coe _)
    cases hvs : vs with
    | nil => rw [hvs] at hv; simp at hv
    | cons w l =>
      have hdown := r.down
      rw [hvs, List.pairwise_cons] at hdown
      have hw := hlo w (by rw [hvs]; simp)
      have hwy : w.y = E.startY a := by
        rw [hvs] at hv
        rcases List.mem_cons.1 hv with rfl | hv
        · exact hvy
        · exact le_antisymm ((hdown.1 v hv).le.trans hvy.le) hw.1
      refine ⟨w, l, rfl, hwy, hw.2.2.2.2.1 hwy, hw.2.2.1.2 hwy, fun u hu => ?_⟩
      have hu' := hlo u (by rw [hvs]; simp [hu])
      rw [← Bool.not_eq_false]
      intro hc
      have := hdown.1 u hu
      rw [hwy, hu'.2.2.1.1 hc] at this
      exact lt_irrefl _ this
  · obtain ⟨v, hv, hvy⟩ := r.last (WithBot.bot_lt_coe _)
    rcases List.eq_nil_or_concat vs with hvs | ⟨l, w, hvs⟩
    · rw [hvs] at hv; simp at hv
    · rw [List.concat_eq_append] at hvs
      have hdown := r.down
      rw [hvs, List.pairwise_append] at hdown
      have hw := hlo w (by rw [hvs]; simp)
      have hwy : w.y = E.endY a := by
        rw [hvs] at hv
        rcases List.mem_append.1 hv with hv | hv
        · exact le_antisymm hw.2.1 (hvy.ge.trans (hdown.2.2 v hv w (by simp)).le)
        · rw [List.mem_singleton] at hv; rw [← hv]; exact hvy
      refine ⟨l, w, hvs, hwy, hw.2.2.2.2.2 hwy, hw.2.2.2.1.2 hwy, fun u hu => ?_⟩
      have hu' := hlo u (by rw [hvs]; simp [hu])
      rw [← Bool.not_eq_false]
      intro hc
      have := hdown.2.2 u hu w (by simp)
      rw [hwy, hu'.2.2.2.1.1 hc] at this
      exact lt_irrefl _ this

/-! ## Theorems -/

/-- **C99.** The callback is called at heights that do not decrease, only about segments of the input, and it is told the way of every one of them. -/
theorem C99_told (hs : E.Sched) (hE : E.Exact) (hpp : E.PP) {fuel2 fuel : Nat} {out : List (K × OutputEvent K)} (h : callbacks E fuel2 fuel = some out) :
    (out.Pairwise fun p q => p.1 ≤ q.1) ∧ (∀ q ∈ out, q.2.segIdx ∈ E.segs) ∧ ∀ a ∈ E.segs, ∃ vs, Walk E a out vs := by
  obtain ⟨h1, h2, h3⟩ := sweepEvents_spec hs hE hpp fuel (Between.init E) (.inl rfl) h
  refine ⟨h1, fun q hq => (h2 q hq).2, fun a ha => ?_⟩
  obtain ⟨vs, r⟩ := h3 a ha
  exact ⟨vs, r.walk⟩

theorem sweepEvents_mono {f2 f2' : Nat} (hf2 : f2 ≤ f2') (f : Nat) : ∀ {f' : Nat} {s : State K} {buf : List Entry} {out : List (K × OutputEvent K)}, f ≤ f' →
    sweepEvents E f2 f s buf = some out → sweepEvents E f2' f' s buf = some out := by
  induction f with
  | zero => intro f' s buf out _ h; simp [sweepEvents] at h
  | succ f ih =>
    intro f' s buf out hf h
    obtain ⟨g, rfl⟩ : ∃ g, f' = g + 1 := ⟨f' - 1, by omega⟩
    simp only [sweepEvents] at h ⊢
    cases h1 : nextLine E f2 s with
    | none => rw [h1] at h; simp at h
    | some r =>
      rw [h1] at h
      rw [nextLine_mono hf2 h1]
      cases r with
      | none => exact h
      | some s1 =>
        dsimp only at h ⊢
        cases h2 : lineEvents E s1 s1.chg buf with
        | none => rw [h2] at h; simp at h
        | some q =>
          rw [h2] at h
          dsimp only at h ⊢
          cases h3 : sweepEvents E f2 f s1 q.1 with
          | none => rw [h3] at h; simp at h
          | some rest =>
            rw [h3] at h
            rw [ih (by omega) h3]
            exact h

/-- **C99.** The calls do not depend on the bounds, if they are large enough. -/
theorem C99_stable {f2 f2' f f' : Nat} (hf2 : f2 ≤ f2') (hf : f ≤ f') {out : List (K × OutputEvent K)} (h : callbacks E f2 f = some out) :
    callbacks E f2' f' = some out := sweepEvents_mono hf2 f hf h

section
variable {W : Type} [AddCommGroup W] {single : Nat → Bool → W}

theorem lineEvents_total {S0 : List Nat} {M L : List Entry} {s : State K} (hF : Finished E S0 M L s) (hE : E.Exact) (cs : List CI) : ∀ {pre : List CI}
    (_ : s.chg = pre ++ cs) {buf buf' : List Entry} {t t' : Topo K W} (_ : processLine E single s cs buf t = some (buf', t')),
    ∃ out, lineEvents E s cs buf = some (buf', out) := by
  induction cs with
  | nil =>
    intro pre _ buf buf' t t' h
    simp only [processLine, Option.some.injEq, Prod.mk.injEq] at h
    obtain ⟨rfl, -⟩ := h
    exact ⟨[], rfl⟩
  | cons c cs ih =>
    intro pre hpre buf buf' t t' h
    simp only [processLine] at h
    split at h
    · simp at h
    rename_i buf1 evs hnr
    split at h
    · simp at h
    rename_i t1 _
    obtain ⟨bs, k1, -⟩ := range_told hF hE (show c ∈ s.chg by rw [hpre]; simp) hnr
    obtain ⟨out, ho⟩ := ih (pre := pre ++ [c]) (by rw [hpre]; simp) h
    refine ⟨bs.flatten.map (fun e => (s.y, e)) ++ out, ?_⟩
    simp only [lineEvents]
    rw [hnr]
    dsimp only
    rw [k1]
    dsimp only
    rw [ho]

theorem sweepEvents_total (hs : E.Sched) (hE : E.Exact) (hpp : E.PP) {fuel2 : Nat} (fuel : Nat) : ∀ {yl : WithBot K} {s : State K} {buf : List Entry}
    {t t' : Topo K W}, Between E yl s → sweepLoop E single fuel2 fuel s buf t = some t' → ∃ out, sweepEvents E fuel2 fuel s buf = some out := by
  induction fuel with
  | zero => intro yl s buf t t' _ h; simp [sweepLoop] at h
  | succ fuel ih =>
    intro yl s buf t t' hB h
    simp only [sweepLoop] at h
    simp only [sweepEvents]
    split at h
    · simp at h
    · rename_i hn
      rw [hn]
      exact ⟨[], rfl⟩
    · rename_i s1 hn
      obtain ⟨hy, ⟨M, L, hF⟩, hB1, hny⟩ := nextLine_some hs hpp hB hn
      split at h
      · simp at h
      rename_i buf1 t1 hl
      obtain ⟨out1, h1⟩ := lineEvents_total hF hE s1.chg (pre := []) rfl hl
      obtain ⟨out2, h2⟩ := ih hB1 h
      rw [hn]
      dsimp only
      rw [h1]
      dsimp only
      rw [h2]
      exact ⟨_, rfl⟩

/-- **C99.** `sweep` returns whenever the topology can be built from the same segments. -/
theorem C99_returns (hs : E.Sched) (hE : E.Exact) (hpp : E.PP) {fuel2 fuel : Nat} {t : Topo K W} (h : fromSegments E single fuel2 fuel = some t) :
    ∃ out, callbacks E fuel2 fuel = some out :=
  sweepEvents_total hs hE hpp fuel (Between.init E) h

end

theorem Tiling.within {e : OutputEvent K} {ps : List (OutputEvent K)} : ∀ {a b : K}, Tiling e a b ps → ∀ p ∈ ps,
    a ≤ p.smallerX ∧ p.largerX ≤ b ∧ p.segIdx = e.segIdx := by
  induction ps with
  | nil => intro a b _ p hp; simp at hp
  | cons q ps ih =>
    rintro a b ⟨c, h1, h2, rfl, h4⟩ p hp
    rcases List.mem_cons.1 hp with rfl | hp
    · obtain ⟨g1, g2, g3⟩ := pieceOf_xs e a c h1
      exact ⟨g1.ge, g2.le.trans h2, g3⟩
    · obtain ⟨g1, g2, g3⟩ := ih h4 p hp
      exact ⟨h1.le.trans g1, g2, g3⟩

variable [AddCommGroup K] [IsOrderedAddMonoid K]

/-- **C99.** If the error intervals of the segments are in order on the lines of the sweep, every position the callback is told lies in the error interval of its segment;
for a horizontal segment, between its ends. -/
theorem C99_within (hs : E.Sched) (hE : E.Exact) (hpp : E.PP) {fuel2 fuel : Nat} (hT : E.Tidy fuel2) {out : List (K × OutputEvent K)}
    (h : callbacks E fuel2 fuel = some out) : ∀ q ∈ out,
    (E.startY q.2.segIdx ≤ q.1 ∧ q.1 ≤ E.endY q.2.segIdx) ∧
    (E.startY q.2.segIdx < E.endY q.2.segIdx → E.lower q.2.segIdx q.1 ≤ q.2.smallerX ∧ q.2.largerX ≤ E.upper q.2.segIdx q.1) ∧
    (E.startY q.2.segIdx = E.endY q.2.segIdx → min (E.startX q.2.segIdx) (E.endX q.2.segIdx) ≤ q.2.smallerX ∧
      q.2.largerX ≤ max (E.startX q.2.segIdx) (E.endX q.2.segIdx)) := by
  obtain ⟨h1, h2, h3⟩ := sweepEvents_spec hs hE hpp fuel (Between.init E) (.inl rfl) h
  intro q hq
  obtain ⟨vs, r⟩ := h3 _ (h2 q hq).2
  have hm : q ∈ callsOf q.2.segIdx out := by
    unfold callsOf
    rw [List.mem_filter]
    exact ⟨hq, by simp⟩
  rw [r.calls, List.mem_flatMap] at hm
  obtain ⟨v, hv, hqv⟩ := hm
  obtain ⟨e, he, rfl⟩ := List.mem_map.1 hqv
  obtain ⟨t1, t2, t3, t4⟩ := r.told v hv
  change v.e.segIdx = e.segIdx at t1
  have hin : v.e.smallerX ≤ e.smallerX ∧ e.largerX ≤ v.e.largerX := by
    by_cases hx : v.e.x0 = v.e.x1
    · have := t2.1 hx
      rw [this, List.mem_singleton] at he
      rw [he]
      exact ⟨le_rfl, le_rfl⟩
    · obtain ⟨g1, g2, -⟩ := Tiling.within (t2.2 hx) e he
      exact ⟨g1, g2⟩
  have hy : E.startY e.segIdx ≤ v.y ∧ v.y ≤ E.endY e.segIdx := by
    rw [← t1]
    constructor
    · cases hc : v.e.connectedAbove with
      | false => exact (t3.starts hc).1.le
      | true => exact (t3.above hc).le
    · cases hc : v.e.connectedBelow with
      | false => exact (t3.stops hc).1.ge
      | true => exact (t3.below hc).le
  refine ⟨hy, fun hlt => ?_, fun heq => ?_⟩
  · obtain ⟨⟨b1, b2⟩, b3, b4⟩ := t4.within hs hpp hE hT (by rw [t1]; exact hlt)
    rw [t1] at b1 b2 b3 b4
    exact ⟨(le_min b1 b3).trans hin.1, hin.2.trans (max_le b2 b4)⟩
  · have hvy : v.y = E.startY v.e.segIdx := by rw [t1]; exact le_antisymm (hy.2.trans heq.ge) hy.1
    have hve : v.y = E.endY v.e.segIdx := by rw [hvy, t1]; exact heq
    have e0 : v.e.x0 = E.startX e.segIdx := by
      cases hc : v.e.connectedAbove with
      | false => rw [← t1]; exact (t3.starts hc).2
      | true => exact absurd (t3.above hc) (by rw [hvy]; exact lt_irrefl _)
    have e1 : v.e.x1 = E.endX e.segIdx := by
      cases hc : v.e.connectedBelow with
      | false => rw [← t1]; exact (t3.stops hc).2
      | true => exact absurd (t3.below hc) (by rw [← hve]; exact lt_irrefl _)
    rw [← e0, ← e1]
    exact hin

end Verif.Sweep
