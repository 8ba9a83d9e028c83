import Verif.Sweep.Advance

/-! One sweep line: what is on it, and what is left for the next one. -/

namespace Verif.Sweep
open Verif.Curve Verif.Range Verif.Topo
set_option linter.unusedSectionVars false

variable {K : Type} [LinearOrder K]

/-! ## Schedules -/

/-- The events of a schedule up to the height `yl` have been delivered. -/
def Delivered (l : List (K × Nat)) (next : Nat) (yl : WithBot K) : Prop :=
  ∀ (i : Nat) (p : K × Nat), l[i]? = some p → (i < next ↔ (p.1 : WithBot K) ≤ yl)

theorem Delivered.head {l : List (K × Nat)} {next : Nat} {yl : WithBot K} (hd : Delivered l next yl) (hs : l.Pairwise fun a b => a.1 ≤ b.1)
    {y : K} (hy : ∀ p, l[next]? = some p → y ≤ p.1) {p : K × Nat} (hp : p ∈ l) (h : yl < p.1) : y ≤ p.1 := by
  obtain ⟨i, hi⟩ := List.mem_iff_getElem?.1 hp
  have h1 : ¬ i < next := by rw [hd i p hi]; exact not_le.2 h
  have hlt := (List.getElem?_eq_some_iff.1 hi).1
  have h2 : l[next]? = some l[next] := List.getElem?_eq_getElem (by omega)
  have h3 := hy _ h2
  rcases Nat.lt_or_ge next i with h4 | h4
  · have h5 := List.pairwise_iff_getElem.1 hs next i (by omega) hlt h4
    have h6 : l[i] = p := (List.getElem?_eq_some_iff.1 hi).2
    rw [h6] at h5
    exact h3.trans h5
  · have : next = i := by omega
    subst this
    rw [hi, Option.some.injEq] at h2
    rw [h2]; exact h3

theorem Delivered.next {l : List (K × Nat)} {next : Nat} {yl : WithBot K} (hd : Delivered l next yl) (hs : l.Pairwise fun a b => a.1 ≤ b.1)
    {y : K} (hlt : yl < y) (hall : ∀ p ∈ atHeight y l next, p.1 = y) :
    Delivered l (next + (atHeight y l next).length) y ∧ (∀ p, p ∈ atHeight y l next ↔ p ∈ l ∧ p.1 = y) ∧ (atHeight y l next).Sublist l := by
  have happ := atHeight_append y l next
  have hdel : Delivered l (next + (atHeight y l next).length) y := by
    intro i p hi
    rw [WithBot.coe_le_coe]
    constructor
    · intro h
      by_cases h1 : i < next
      · have := (hd i p hi).1 h1
        exact WithBot.coe_le_coe.1 (this.trans hlt.le)
      · have h2 : (l.drop next)[i - next]? = some p := by rw [List.getElem?_drop]; rw [← hi]; congr 1; omega
        rw [happ, List.getElem?_append_left (by omega)] at h2
        exact (hall p (List.mem_of_getElem? h2)).le
    · intro h
      by_contra hcon
      have hlen := (List.getElem?_eq_some_iff.1 hi).1
      have h2 : l[next + (atHeight y l next).length]? = some l[next + (atHeight y l next).length] := List.getElem?_eq_getElem (by omega)
      have h3 := atHeight_rest y l next _ h2
      rcases Nat.lt_or_ge (next + (atHeight y l next).length) i with h4 | h4
      · have h5 := List.pairwise_iff_getElem.1 hs _ i (by omega) hlen h4
        have h6 : l[i] = p := (List.getElem?_eq_some_iff.1 hi).2
        rw [h6] at h5
        exact absurd h (not_le.2 (h3.trans_le h5))
      · have h7 : next + (atHeight y l next).length = i := by omega
        have h5 : l[next + (atHeight y l next).length] = p := by
          have h8 := (List.getElem?_eq_some_iff.1 hi).2
          simp only [h7]; exact h8
        rw [h5] at h3
        exact absurd h (not_le.2 h3)
  have hsub : (atHeight y l next).Sublist l :=
    (List.takeWhile_prefix _).sublist.trans (List.drop_sublist _ _)
  refine ⟨hdel, ?_, hsub⟩
  intro p
  constructor
  · intro hp
    exact ⟨hsub.subset hp, hall p hp⟩
  · rintro ⟨hp, hy⟩
    obtain ⟨i, hi⟩ := List.mem_iff_getElem?.1 hp
    have h1 : i < next + (atHeight y l next).length := (hdel i p hi).2 (by rw [hy])
    have h2 : ¬ i < next := by rw [hd i p hi, hy]; exact not_le.2 hlt
    have h3 : (l.drop next)[i - next]? = some p := by rw [List.getElem?_drop]; rw [← hi]; congr 1; omega
    rw [happ, List.getElem?_append_left (by omega)] at h3
    exact List.mem_of_getElem? h3

/-! ## Ids -/

theorem mem_lineIds {l : List Entry} {x : Nat} : x ∈ lineIds l ↔ ∃ e ∈ l, x ∈ e.ids := by
  unfold lineIds; rw [List.mem_flatMap]

theorem ids_unique {l : List Entry} (h : (lineIds l).Nodup) {e f : Entry} {x : Nat} (he : e ∈ l) (hf : f ∈ l) (hxe : x ∈ e.ids) (hxf : x ∈ f.ids) :
    e = f := by
  induction l with
  | nil => simp at he
  | cons g l ih =>
    rw [lineIds_cons, List.nodup_append] at h
    rcases List.mem_cons.1 he with he' | he'
    · rcases List.mem_cons.1 hf with hf' | hf'
      · rw [he', hf']
      · subst he'; exact absurd rfl (h.2.2 x hxe x (mem_lineIds.2 ⟨f, hf', hxf⟩))
    · rcases List.mem_cons.1 hf with hf' | hf'
      · subst hf'; exact absurd rfl (h.2.2 x hxf x (mem_lineIds.2 ⟨e, he', hxe⟩))
      · exact ih h.2.1 he' hf'

theorem ids_nodup {l : List Entry} (h : (lineIds l).Nodup) {e : Entry} (he : e ∈ l) : e.ids.Nodup := by
  unfold lineIds at h
  rw [List.nodup_flatMap] at h
  exact h.1 e he

theorem segs_sublist (l : List Entry) : (l.map Entry.seg).Sublist (lineIds l) := by
  induction l with
  | nil => exact List.Sublist.refl _
  | cons e l ih =>
    rw [lineIds_cons, List.map_cons]
    show (e.seg :: l.map Entry.seg).Sublist (e.seg :: (e.oldSeg.toList ++ lineIds l))
    exact (ih.trans (List.sublist_append_right _ _)).cons_cons _

theorem newSegs_sublist (l : List Entry) : (newSegs l).Sublist (l.map Entry.seg) := by
  induction l with
  | nil => exact List.Sublist.refl _
  | cons e l ih =>
    unfold newSegs at ih ⊢
    rw [List.filterMap_cons, List.map_cons]
    split
    · exact ih.cons _
    · rename_i b hb
      have : b = e.seg := by
        unfold Entry.newOf at hb
        split_ifs at hb
        simpa using hb.symm
      subst this
      exact ih.cons_cons _

theorem mem_newSegs {l : List Entry} {x : Nat} : x ∈ newSegs l ↔ ∃ e ∈ l, e.willReallyExit = false ∧ e.seg = x := by
  unfold newSegs
  rw [List.mem_filterMap]
  constructor
  · rintro ⟨e, h1, h2⟩
    unfold Entry.newOf at h2
    split_ifs at h2 with h3
    exact ⟨e, h1, by simpa using h3, by simpa using h2⟩
  · rintro ⟨e, h1, h2, h3⟩
    refine ⟨e, h1, ?_⟩
    unfold Entry.newOf
    rw [if_neg (by simp [h2]), h3]

theorem mem_oldSegs {l : List Entry} {x : Nat} : x ∈ oldSegs l ↔ ∃ e ∈ l, e.oldOf = some x := by
  unfold oldSegs
  rw [List.mem_filterMap]

theorem Kind.core {E : Env K} {y : K} {e f : Entry} (h : Kind E y e) (hc : f.core = e.core) : Kind E y f := by
  rcases e with ⟨a1, a2, a3, a4, a5, a6⟩
  rcases f with ⟨b1, b2, b3, b4, b5, b6⟩
  simp only [Entry.core, Entry.mk.injEq] at hc
  obtain ⟨rfl, rfl, rfl, _, _, rfl⟩ := hc
  rcases h with ⟨h1, h2, h3⟩ | ⟨h1, h2, h3, h4⟩ | ⟨o, h1, h2, h3, h4, h5, h6, h7, h8⟩ | ⟨h1, h2, h3, h4⟩
  · exact .stays h1 h2 h3
  · exact .enters h1 h2 h3 h4
  · exact .continues o h1 h2 h3 h4 h5 h6 h7 h8
  · exact .exits h1 h2 h3 h4

/-! ## The invariants -/

/-- The ids of the segments. -/
def Env.segs (E : Env K) : List Nat := E.entrances.map Prod.snd

/-- After the line at height `yl`. -/
structure Between (E : Env K) (yl : WithBot K) (s : State K) : Prop where
  done : Done s
  mem : ∀ x, x ∈ newSegs s.line ↔ x ∈ E.segs ∧ E.isHorizontal x = false ∧ (E.startY x : WithBot K) ≤ yl ∧ yl < E.endY x
  nodup : (newSegs s.line).Nodup
  sorted : QSorted s.ints
  later : ∀ e ∈ s.ints, yl < e.y
  enter : Delivered E.entrances s.nextEnter yl
  exit : Delivered E.exits s.nextExit yl

/-- The line at height `s.y`: `S0` are the segments on the line above from left to right, `M` the line after the entrances and exits,
`L` after the intersections. -/
structure Finished (E : Env K) (S0 : List Nat) (M L : List Entry) (s : State K) : Prop where
  old : oldSegs M = S0
  blank : ∀ e ∈ M, e.inCh = false ∧ e.oldIdx = none
  kinds : ∀ e ∈ M, Kind E s.y e
  nodup : (lineIds M).Nodup
  mem : ∀ x, x ∈ lineIds M ↔ x ∈ E.segs ∧ E.isHorizontal x = false ∧ E.startY x ≤ s.y ∧ s.y ≤ E.endY x
  above : ∀ x ∈ S0, E.startY x < s.y
  gone : ∀ x ∈ lineIds M, E.endY x = s.y → ∃ e ∈ M, (e.seg = x ∧ e.exit = true ∧ e.oldSeg = none) ∨ e.oldSeg = some x
  entered : ∀ x ∈ lineIds M, E.startY x = s.y → ∃ e ∈ M, e.seg = x ∧ e.enter = true
  move : MoveInv M L s.snp
  chg : ChgSpec E s.y L s.snp s.horiz s.line s.chg
  horiz : ∀ x, x ∈ s.horiz ↔ x ∈ E.segs ∧ E.isHorizontal x = true ∧ E.startY x = s.y
  horizNodup : s.horiz.Nodup

theorem Finished.core_perm {E : Env K} {S0 : List Nat} {M L : List Entry} {s : State K} (h : Finished E S0 M L s) :
    (s.line.map Entry.core).Perm (M.map Entry.core) := by
  rw [h.chg.same.core_map]; exact h.move.core_perm

theorem Finished.exists_core {E : Env K} {S0 : List Nat} {M L : List Entry} {s : State K} (h : Finished E S0 M L s) {e : Entry} (he : e ∈ s.line) :
    ∃ f ∈ M, f.core = e.core := by
  have : e.core ∈ M.map Entry.core := h.core_perm.mem_iff.1 (List.mem_map_of_mem he)
  obtain ⟨f, h1, h2⟩ := List.mem_map.1 this
  exact ⟨f, h1, h2⟩

theorem Finished.kind {E : Env K} {S0 : List Nat} {M L : List Entry} {s : State K} (h : Finished E S0 M L s) {e : Entry} (he : e ∈ s.line) :
    Kind E s.y e := by
  obtain ⟨f, h1, h2⟩ := h.exists_core he
  exact (h.kinds f h1).core h2.symm

theorem Finished.ids_perm {E : Env K} {S0 : List Nat} {M L : List Entry} {s : State K} (h : Finished E S0 M L s) :
    (lineIds s.line).Perm (lineIds M) := by
  rw [← lineIds_core s.line, ← lineIds_core M]
  exact h.core_perm.flatMap_right _

theorem Finished.new_perm {E : Env K} {S0 : List Nat} {M L : List Entry} {s : State K} (h : Finished E S0 M L s) :
    (newSegs s.line).Perm (newSegs M) := by
  rw [← newSegs_core s.line, ← newSegs_core M]
  exact h.core_perm.filterMap _

theorem Finished.mem_new {E : Env K} {S0 : List Nat} {M L : List Entry} {s : State K} (h : Finished E S0 M L s) (x : Nat) :
    x ∈ newSegs M ↔ x ∈ lineIds M ∧ s.y < E.endY x := by
  rw [mem_newSegs]
  constructor
  · rintro ⟨e, h1, h2, rfl⟩
    have hid : e.seg ∈ lineIds M := mem_lineIds.2 ⟨e, h1, by simp [Entry.ids]⟩
    refine ⟨hid, ?_⟩
    have hle := ((h.mem e.seg).1 hid).2.2.2
    refine lt_of_le_of_ne hle ?_
    intro heq
    obtain ⟨f, hf, hor⟩ := h.gone e.seg hid heq.symm
    rcases hor with ⟨a, b, c⟩ | c
    · have : f = e := ids_unique h.nodup hf h1 (x := e.seg) (by simp [Entry.ids, a]) (by simp [Entry.ids])
      subst this
      simp [Entry.willReallyExit, b, c] at h2
    · have : f = e := ids_unique h.nodup hf h1 (x := e.seg) (by simp [Entry.ids, c]) (by simp [Entry.ids])
      subst this
      have hn := ids_nodup h.nodup hf
      simp [Entry.ids, c] at hn
  · rintro ⟨h1, h2⟩
    obtain ⟨e, he, hx⟩ := mem_lineIds.1 h1
    have hk := h.kinds e he
    rw [Entry.ids, List.mem_cons] at hx
    rcases hx with rfl | hx
    · refine ⟨e, he, ?_, rfl⟩
      rcases hk with ⟨a, b, c⟩ | ⟨a, b, c, d⟩ | ⟨o, a, b, c, d⟩ | ⟨a, b, c, d⟩
      · simp [Entry.willReallyExit, b]
      · simp [Entry.willReallyExit, b]
      · simp [Entry.willReallyExit, c]
      · rw [d] at h2; exact absurd h2 (lt_irrefl _)
    · rcases hk with ⟨a, b, c⟩ | ⟨a, b, c, d⟩ | ⟨o, a, b, c, d, e1, e2, e3, e4⟩ | ⟨a, b, c, d⟩
      · rw [c] at hx; simp at hx
      · rw [c] at hx; simp at hx
      · rw [c] at hx
        simp only [Option.toList_some, List.mem_singleton] at hx
        subst hx
        rw [e4] at h2; exact absurd h2 (lt_irrefl _)
      · rw [c] at hx; simp at hx

theorem Finished.done {E : Env K} {S0 : List Nat} {M L : List Entry} {s : State K} (h : Finished E S0 M L s) : Done s := by
  have hfl : ∀ (i : Nat) (e : Entry), s.line[i]? = some e → (e.enter = true ∨ e.exit = true) → i ∈ s.snp := by
    intro i e he hf
    obtain ⟨f, h1⟩ := h.chg.same.get he
    obtain ⟨_, q2, q3, _⟩ := h.chg.same.core h1 he
    exact h.move.flags i f h1 (by rw [← q2, ← q3]; exact hf)
  constructor
  case flags =>
    intro i e he hor
    rcases hor with a | a | a | a | a
    · exact h.chg.placed i (hfl i e he (.inl a))
    · exact h.chg.placed i (hfl i e he (.inr a))
    · exact h.chg.marked i e he (.inl a)
    · exact h.chg.marked i e he (.inr a)
    · refine h.chg.placed i (hfl i e he ?_)
      rcases h.kind (List.mem_of_getElem? he) with ⟨_, _, c⟩ | ⟨_, _, c, _⟩ | ⟨o, c, _⟩ | ⟨_, _, c, _⟩
      · exact absurd c a
      · exact absurd c a
      · exact .inl c
      · exact absurd c a
  case exits =>
    intro i e he hw
    refine hfl i e he (.inr ?_)
    unfold Entry.willReallyExit at hw
    simp only [Bool.and_eq_true] at hw
    exact hw.1

/-! ## `next_line` -/

theorem lineIds_new (S : List Nat) : lineIds (S.map Entry.new) = S := by
  induction S with
  | nil => rfl
  | cons a S ih => rw [List.map_cons, lineIds_cons, ih]; rfl

theorem oldSegs_new (S : List Nat) : oldSegs (S.map Entry.new) = S := by
  induction S with
  | nil => rfl
  | cons a S ih =>
    unfold oldSegs at ih ⊢
    rw [List.map_cons, List.filterMap_cons, ih]
    rfl

/-- sweep_line.rs:346-374: the first half of `next_line`, up to the loop that handles the intersections: the next height, the entrances and
the exits. -/
def beforeInts (E : Env K) (s : State K) : Option (State K) :=
  match nextY E s with
  | none => none
  | some y =>
    match advance s y with
    | none => none
    | some s =>
      let enters := atHeight y E.entrances s.nextEnter
      match handleAll (handleEnter E) y enters { s with nextEnter := s.nextEnter + enters.length } with
      | none => none
      | some s =>
        let exits := atHeight y E.exits s.nextExit
        handleAll (handleExit E) y exits { s with nextExit := s.nextExit + exits.length }

theorem nextLine_parts {E : Env K} (hs : E.Sched) (hpp : E.PP) {yl : WithBot K} {s s' : State K} {fuel : Nat} (hb : Between E yl s)
    (h : nextLine E fuel s = some (some s')) :
    yl < s'.y ∧ (∃ w v, beforeInts E s = some w ∧ w.y = s'.y ∧ intLoop E fuel w = some v ∧ v.ints = s'.ints ∧ MoveInv w.line w.line w.snp ∧ QInv w.y w.ints ∧
      Finished E (newSegs s.line) w.line v.line s') ∧ Between E s'.y s' ∧ nextY E s = some s'.y := by
  unfold nextLine at h
  split at h
  · simp at h
  rename_i y hy
  split at h
  · simp at h
  rename_i s1 hs1
  obtain ⟨a1, a2, a3, a4, a5, a6, a7, a8⟩ := advance_spec hb.done hs1
  dsimp only at h
  split at h
  · simp at h
  rename_i s2 hs2
  split at h
  · simp at h
  rename_i s3 hs3
  split at h
  · simp at h
  rename_i s4 hs4
  split at h
  · simp at h
  rename_i s5 hs5
  simp only [Option.some.injEq] at h
  subst h
  obtain ⟨n1, n2, n3, n4⟩ := nextY_some hy
  -- the height
  have hlt : yl < y := by
    rcases n1 with ⟨p, h1, h2⟩ | ⟨p, h1, h2⟩ | ⟨e, h1, h2⟩
    · rw [← h2]
      by_contra hc
      have := (hb.enter _ p h1).2 (not_lt.1 hc)
      omega
    · rw [← h2]
      by_contra hc
      have := (hb.exit _ p h1).2 (not_lt.1 hc)
      omega
    · rw [← h2]
      exact hb.later e (List.mem_of_mem_head? h1)
  rw [a3] at hs2
  -- entrances
  have hE0 : EnterInv E y (newSegs s.line) [] { s1 with nextEnter := s.nextEnter + (atHeight y E.entrances s.nextEnter).length } := by
    constructor
    case y_eq => exact a1
    case old => show oldSegs s1.line = _; rw [a2, oldSegs_new]
    case blank =>
      intro e he
      change e ∈ s1.line at he
      rw [a2] at he
      obtain ⟨x, _, rfl⟩ := List.mem_map.1 he
      exact ⟨rfl, rfl⟩
    case kinds =>
      intro e he
      change e ∈ s1.line at he
      rw [a2] at he
      obtain ⟨x, _, rfl⟩ := List.mem_map.1 he
      exact .stays rfl rfl rfl
    case ids => show (lineIds s1.line).Perm _; rw [a2, lineIds_new]; simp
    case horiz => show s1.horiz = _; rw [a6]; rfl
    case sorted => show s1.snp.Pairwise _; rw [a7]; exact .nil
    case snp =>
      intro i
      show i ∈ s1.snp ↔ ∃ e, s1.line[i]? = some e ∧ e.enter = true
      rw [a7, a2]
      constructor
      · intro hi; simp at hi
      · rintro ⟨e, h1, h2⟩
        obtain ⟨x, _, rfl⟩ := List.mem_map.1 (List.mem_of_getElem? h1)
        simp [Entry.new] at h2
  have hsubE : ∀ p ∈ atHeight y E.entrances s.nextEnter, p ∈ E.entrances := fun p hp =>
    ((List.takeWhile_prefix _).sublist.trans (List.drop_sublist _ _)).subset hp
  obtain ⟨b1, b2, b3, b4, b5, b6⟩ := handleAll_enter _ hE0 (fun p hp => hs.enter_y p (hsubE p hp)) hs2
  rw [List.nil_append] at b1
  obtain ⟨d1, d2, d3⟩ := hb.enter.next hs.enter_sorted hlt b6
  -- exits
  dsimp only at b3 b4
  rw [a4] at b4
  rw [b4] at hs3
  have hsubX : ∀ p ∈ atHeight y E.exits s.nextExit, p ∈ E.exits := fun p hp =>
    ((List.takeWhile_prefix _).sublist.trans (List.drop_sublist _ _)).subset hp
  have hX0 : ExitInv E y (newSegs s.line) (newSegs s.line ++ ((atHeight y E.entrances s.nextEnter).map Prod.snd).filter fun x => !E.isHorizontal x) []
      { s2 with nextExit := s.nextExit + (atHeight y E.exits s.nextExit).length } := by
    have := b1.exitInv
    exact ⟨this.y_eq, this.old, this.blank, this.kinds, this.ids, this.snp, this.gone⟩
  obtain ⟨c1, c2, c3, c4, c5, c6, c7⟩ := handleAll_exit _ hX0 (fun p hp => ⟨hs.exit_y p (hsubX p hp), by
    have := (hs.exit_mem p.2).1 (List.mem_map_of_mem (hsubX p hp))
    exact this.2⟩) hs3
  rw [List.nil_append] at c1
  dsimp only at c2 c3 c4 c6
  obtain ⟨x1, x2, x3⟩ := hb.exit.next hs.exit_sorted hlt c7
  -- intersections
  have hq0 : QInv y s1.ints := by
    rw [a5]
    refine ⟨hb.sorted, ?_⟩
    intro e he
    cases hi : s.ints with
    | nil => rw [hi] at he; simp at he
    | cons f fs =>
      have hso := hb.sorted
      rw [hi] at he hso
      exact (n4 f (by rw [hi]; rfl)).trans (hso.head_le e he)
  have hq3 : QInv s3.y s3.ints := by
    rw [c1.y_eq]; exact c2 (b2 hq0)
  obtain ⟨i1, i2, i3, i4, i5, i6, i7, i8⟩ := intLoop_spec fuel hs4 c1.moveInv hq3
  -- changed intervals
  have hcore4 := i1.core_perm
  have hin4 : ∀ e ∈ s4.line, e.inCh = false := by
    have hc : CutAt s4.snp s4.line.length := .inl fun hi => absurd (i1.lt _ hi) (lt_irrefl _)
    have hp := i1.perm _ hc
    rw [List.take_length, i1.len, List.take_length] at hp
    have key : ∀ (k : Nat) (l : List Entry), (places k l).map (fun p => p.2) = l.map Entry.strip := by
      intro k l
      induction l generalizing k with
      | nil => rfl
      | cons e l ih => rw [places, List.map_cons, ih]; rfl
    have hp' := hp.map fun p => p.2
    rw [key, key] at hp'
    intro e he
    have : e.strip ∈ s3.line.map Entry.strip := hp'.mem_iff.1 (List.mem_map_of_mem he)
    obtain ⟨f, hf, h2⟩ := List.mem_map.1 this
    have h3 := (c1.blank f hf).1
    have := congrArg Entry.inCh h2
    simp only [Entry.strip] at this
    rw [← this]; exact h3
  obtain ⟨j1, j2, j3, j4, j5, j6, j7⟩ := computeChanged_spec hpp hs5 hin4 i1.moved
  have hy5 : s5.y = y := j3.trans (i4.trans c1.y_eq)
  have hyl : yl < s5.y := by rw [hy5]; exact hlt
  -- what is on the line
  have hidm : ∀ x, x ∈ lineIds s3.line ↔ x ∈ newSegs s.line ∨ (x ∈ E.segs ∧ E.startY x = y ∧ E.isHorizontal x = false) := by
    intro x
    rw [c1.ids.mem_iff, List.mem_append, List.mem_filter, List.mem_map]
    constructor
    · rintro (h1 | ⟨⟨p, h1, rfl⟩, h2⟩)
      · exact .inl h1
      · right
        have := (d2 p).1 h1
        refine ⟨List.mem_map_of_mem this.1, by rw [← hs.enter_y p this.1]; exact this.2, by simpa using h2⟩
    · rintro (h1 | ⟨h1, h2, h3⟩)
      · exact .inl h1
      · obtain ⟨p, hp, rfl⟩ := List.mem_map.1 h1
        exact .inr ⟨⟨p, (d2 p).2 ⟨hp, by rw [hs.enter_y p hp]; exact h2⟩, rfl⟩, by simp [h3]⟩
  have hmem : ∀ x, x ∈ lineIds s3.line ↔ x ∈ E.segs ∧ E.isHorizontal x = false ∧ E.startY x ≤ y ∧ y ≤ E.endY x := by
    intro x
    rw [hidm, hb.mem]
    constructor
    · rintro (⟨h1, h2, h3, h4⟩ | ⟨h1, h2, h3⟩)
      · refine ⟨h1, h2, WithBot.coe_le_coe.1 (h3.trans hlt.le), ?_⟩
        obtain ⟨p, hp, rfl⟩ := List.mem_map.1 ((hs.exit_mem x).2 ⟨h1, h2⟩)
        have := hb.exit.head hs.exit_sorted n3 hp (by rw [hs.exit_y p hp]; exact h4)
        rwa [hs.exit_y p hp] at this
      · exact ⟨h1, h3, h2.le, by rw [← h2]; exact hs.down x h1⟩
    · rintro ⟨h1, h2, h3, h4⟩
      by_cases h5 : (E.startY x : WithBot K) ≤ yl
      · exact .inl ⟨h1, h2, h5, hlt.trans_le (WithBot.coe_le_coe.2 h4)⟩
      · right
        refine ⟨h1, le_antisymm h3 ?_, h2⟩
        obtain ⟨p, hp, rfl⟩ := List.mem_map.1 h1
        have := hb.enter.head hs.enter_sorted n2 hp (by rw [hs.enter_y p hp]; exact not_le.1 h5)
        rwa [hs.enter_y p hp] at this
  have hnd : (lineIds s3.line).Nodup := by
    rw [c1.ids.nodup_iff, List.nodup_append]
    refine ⟨hb.nodup, ?_, ?_⟩
    · exact ((d3.map Prod.snd).nodup hs.enter_nodup).filter _
    · intro a ha b hb' hab
      subst hab
      obtain ⟨h1, _⟩ := List.mem_filter.1 hb'
      obtain ⟨p, hp, rfl⟩ := List.mem_map.1 h1
      have h2 := ((hb.mem _).1 ha).2.2.1
      have h3 := (d2 p).1 hp
      rw [← hs.enter_y p h3.1, h3.2] at h2
      exact absurd hlt (not_lt.2 h2)
  have habove : ∀ x ∈ newSegs s.line, E.startY x < y := by
    intro x hx
    exact WithBot.coe_lt_coe.1 (((hb.mem x).1 hx).2.2.1.trans_lt hlt)
  have hF : Finished E (newSegs s.line) s3.line s4.line s5 := by
    constructor
    case old => exact c1.old
    case blank => exact c1.blank
    case kinds => rw [hy5]; exact c1.kinds
    case nodup => exact hnd
    case mem => rw [hy5]; exact hmem
    case above => rw [hy5]; exact habove
    case gone =>
      rw [hy5]
      intro x hx hxy
      have h1 := (hmem x).1 hx
      obtain ⟨p, hp, rfl⟩ := List.mem_map.1 ((hs.exit_mem x).2 ⟨h1.1, h1.2.1⟩)
      exact c1.gone p.2 (List.mem_map_of_mem ((x2 p).2 ⟨hp, by rw [hs.exit_y p hp]; exact hxy⟩))
    case entered =>
      rw [hy5]
      intro x hx hxy
      obtain ⟨e, he, hxe⟩ := mem_lineIds.1 hx
      have hk := c1.kinds e he
      rw [Entry.ids, List.mem_cons] at hxe
      rcases hxe with rfl | hxe
      · refine ⟨e, he, rfl, ?_⟩
        by_contra hen
        have hen : e.enter = false := by simpa using hen
        have : e.seg ∈ oldSegs s3.line := mem_oldSegs.2 ⟨e, he, by simp [Entry.oldOf, hen]⟩
        rw [c1.old] at this
        exact absurd hxy (habove _ this).ne
      · rcases hk with ⟨a, b, c⟩ | ⟨a, b, c, d⟩ | ⟨o, a, b, c, d, e1, e2, e3, e4⟩ | ⟨a, b, c, d⟩
        · rw [c] at hxe; simp at hxe
        · rw [c] at hxe; simp at hxe
        · rw [c] at hxe
          simp only [Option.toList_some, List.mem_singleton] at hxe
          subst hxe
          exact absurd hxy e2.ne
        · rw [c] at hxe; simp at hxe
    case move => rw [j7]; exact i1
    case chg =>
      have := j1
      rw [hy5, j7]
      rw [i4, c1.y_eq] at this
      exact this
    case horiz =>
      intro x
      rw [j2.mem_iff, i8, c6, b1.horiz, List.mem_filter, List.mem_map, hy5]
      constructor
      · rintro ⟨⟨p, h1, rfl⟩, h2⟩
        have := (d2 p).1 h1
        exact ⟨List.mem_map_of_mem this.1, h2, by rw [← hs.enter_y p this.1]; exact this.2⟩
      · rintro ⟨h1, h2, h3⟩
        obtain ⟨p, hp, rfl⟩ := List.mem_map.1 h1
        exact ⟨⟨p, (d2 p).2 ⟨hp, by rw [hs.enter_y p hp]; exact h3⟩, rfl⟩, h2⟩
    case horizNodup =>
      rw [j2.nodup_iff, i8, c6, b1.horiz]
      exact ((d3.map Prod.snd).nodup hs.enter_nodup).filter _
  have hbi : beforeInts E s = some s3 := by
    unfold beforeInts
    rw [hy]
    dsimp only
    rw [hs1]
    dsimp only
    rw [a3, hs2]
    dsimp only
    rw [b4, hs3]
  refine ⟨hyl, ⟨s3, s4, hbi, by rw [hy5]; exact c1.y_eq, hs4, j6.symm, c1.moveInv, hq3, hF⟩, ?_, by rw [hy5]; exact hy⟩
  constructor
  case done => exact hF.done
  case mem =>
    intro x
    rw [hF.new_perm.mem_iff, hF.mem_new, hmem, WithBot.coe_le_coe, WithBot.coe_lt_coe, hy5]
    constructor
    · rintro ⟨⟨h1, h2, h3, h4⟩, h5⟩; exact ⟨h1, h2, h3, h5⟩
    · rintro ⟨h1, h2, h3, h4⟩; exact ⟨⟨h1, h2, h3, h4.le⟩, h4⟩
  case nodup =>
    rw [hF.new_perm.nodup_iff]
    exact ((newSegs_sublist _).trans (segs_sublist _)).nodup hnd
  case sorted => rw [j6]; exact i2.1
  case later =>
    intro e he
    rw [j6] at he
    have := i3 e he
    rw [c1.y_eq] at this
    rw [hy5]
    exact WithBot.coe_lt_coe.2 this
  case enter => rw [j4, i5, c3, b3, hy5]; exact d1
  case exit => rw [j5, i6, c4, hy5]; exact x1

theorem nextLine_some {E : Env K} (hs : E.Sched) (hpp : E.PP) {yl : WithBot K} {s s' : State K} {fuel : Nat} (hb : Between E yl s)
    (h : nextLine E fuel s = some (some s')) :
    yl < s'.y ∧ (∃ M L, Finished E (newSegs s.line) M L s') ∧ Between E s'.y s' ∧ nextY E s = some s'.y := by
  obtain ⟨h1, ⟨w, v, _, _, _, _, _, _, h2⟩, h3, h4⟩ := nextLine_parts hs hpp hb h
  exact ⟨h1, ⟨_, _, h2⟩, h3, h4⟩

theorem nextLine_none {E : Env K} (hs : E.Sched) {yl : WithBot K} {s : State K} {fuel : Nat} (hb : Between E yl s)
    (h : nextLine E fuel s = some none) :
    newSegs s.line = [] ∧ ∀ x ∈ E.segs, (E.startY x : WithBot K) ≤ yl ∧ (E.endY x : WithBot K) ≤ yl := by
  unfold nextLine at h
  split at h
  · rename_i hy
    obtain ⟨h1, h2, h3⟩ := nextY_none hy
    have hst : ∀ x ∈ E.segs, (E.startY x : WithBot K) ≤ yl := by
      intro x hx
      obtain ⟨p, hp, rfl⟩ := List.mem_map.1 hx
      obtain ⟨i, hi⟩ := List.mem_iff_getElem?.1 hp
      rw [← hs.enter_y p hp]
      exact (hb.enter i p hi).1 (by have := (List.getElem?_eq_some_iff.1 hi).1; omega)
    have hen : ∀ x ∈ E.segs, (E.endY x : WithBot K) ≤ yl := by
      intro x hx
      by_cases hh : E.isHorizontal x = true
      · have : E.startY x = E.endY x := by simpa [Env.isHorizontal] using hh
        rw [← this]
        exact hst x hx
      · obtain ⟨p, hp, rfl⟩ := List.mem_map.1 ((hs.exit_mem x).2 ⟨hx, by simpa using hh⟩)
        obtain ⟨i, hi⟩ := List.mem_iff_getElem?.1 hp
        rw [← hs.exit_y p hp]
        exact (hb.exit i p hi).1 (by have := (List.getElem?_eq_some_iff.1 hi).1; omega)
    refine ⟨?_, fun x hx => ⟨hst x hx, hen x hx⟩⟩
    rw [List.eq_nil_iff_forall_not_mem]
    intro x hx
    have := (hb.mem x).1 hx
    exact absurd (hen x this.1) (not_le.2 this.2.2.2)
  · exfalso
    split at h
    · simp at h
    dsimp only at h
    split at h
    · simp at h
    split at h
    · simp at h
    split at h
    · simp at h
    split at h
    · simp at h
    simp at h

theorem Between.init (E : Env K) : Between E ⊥ (State.new E) := by
  have hl : (State.new E).line = [] := rfl
  constructor
  case done => exact ⟨by rw [hl]; simp, by rw [hl]; simp⟩
  case mem =>
    intro x
    rw [hl]
    constructor
    · intro h; simp [newSegs] at h
    · rintro ⟨_, _, h, _⟩
      exact absurd h (by simp)
  case nodup => rw [hl]; simp [newSegs]
  case sorted => exact .nil
  case later => intro e he; exact absurd he (by simp [State.new])
  case enter => intro i p _; simp [State.new]
  case exit => intro i p _; simp [State.new]

end Verif.Sweep
