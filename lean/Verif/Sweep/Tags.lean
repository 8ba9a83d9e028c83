import Verif.Sweep.Pass

/-! The events of a range, one entry of the line at a time. -/

namespace Verif.Sweep
open Verif.Curve Verif.Range Verif.Topo
set_option linter.unusedSectionVars false

variable {K : Type} [LinearOrder K]

/-- The entries of the line in an interval. -/
def slice (l : List Entry) (c : CI) : List Entry := (l.drop c.start).take (c.stop - c.start)

theorem slice_length {l : List Entry} {c : CI} (h : c.stop ≤ l.length) : (slice l c).length = c.stop - c.start := by
  unfold slice
  rw [List.length_take, List.length_drop]
  omega

theorem slice_get {l : List Entry} {c : CI} {k : Nat} (hk : c.start + k < c.stop) : (slice l c)[k]? = l[c.start + k]? := by
  unfold slice
  rw [List.getElem?_take, if_pos (by omega), List.getElem?_drop]

theorem mem_slice {l : List Entry} {c : CI} {e : Entry} : e ∈ slice l c ↔ ∃ i, c.start ≤ i ∧ i < c.stop ∧ l[i]? = some e := by
  constructor
  · intro h
    obtain ⟨k, hk⟩ := List.mem_iff_getElem?.1 h
    have hlt := (List.getElem?_eq_some_iff.1 hk).1
    unfold slice at hlt
    rw [List.length_take] at hlt
    have : c.start + k < c.stop := by omega
    rw [slice_get this] at hk
    exact ⟨_, by omega, this, hk⟩
  · rintro ⟨i, h1, h2, h3⟩
    apply List.mem_iff_getElem?.2
    refine ⟨i - c.start, ?_⟩
    rw [slice_get (by omega), ← h3]
    congr 1
    omega

theorem take_slice (l : List Entry) (c : CI) (h : c.start ≤ c.stop) : l.take c.stop = l.take c.start ++ slice l c := by
  unfold slice
  have : c.stop = c.start + (c.stop - c.start) := by omega
  conv_lhs => rw [this]
  rw [List.take_add]

/-! ## The old places of the entries in an interval -/

theorem sep_or {chg : List CI} (h : chg.Pairwise fun a b => a.stop < b.start) {c d : CI} (hc : c ∈ chg) (hd : d ∈ chg) :
    c = d ∨ c.stop < d.start ∨ d.stop < c.start := pairwise_or h hc hd

theorem ChgSpec.cut {E : Env K} {y : K} {L : List Entry} {snp h : List Nat} {L' : List Entry} {chg : List CI} (hC : ChgSpec E y L snp h L' chg)
    {c : CI} (hc : c ∈ chg) : CutAt snp c.start ∧ CutAt snp c.stop := by
  have hb := hC.bound c hc
  constructor
  · right
    intro b hb' hin
    obtain ⟨d, hd, h1, h2⟩ := hC.placed b hin
    have hb2 := hC.bound d hd
    rcases sep_or hC.sep hc hd with rfl | h3 | h3 <;> omega
  · left
    intro hin
    obtain ⟨d, hd, h1, h2⟩ := hC.placed _ hin
    have hb2 := hC.bound d hd
    rcases sep_or hC.sep hc hd with rfl | h3 | h3 <;> omega

theorem places_slice {M L : List Entry} {snp : List Nat} (h : MoveInv M L snp) {c : CI} (hc : c.start ≤ c.stop) (hl : c.stop ≤ L.length)
    (h1 : CutAt snp c.start) (h2 : CutAt snp c.stop) : (places c.start (slice L c)).Perm (places c.start (slice M c)) := by
  have p1 := h.perm _ h1
  have p2 := h.perm _ h2
  have hlen := h.len
  rw [take_slice L c hc, take_slice M c hc, places_append, places_append, List.length_take, List.length_take, Nat.zero_add, Nat.zero_add,
    min_eq_left (by omega), min_eq_left (by omega)] at p2
  exact (List.perm_append_left_iff _).1 (((p1.append_right _).symm).trans p2)

/-- The entries of an interval are the entries of the same interval of `M`, and they remember their place there. -/
theorem Finished.slice_perm {E : Env K} {S0 : List Nat} {M L : List Entry} {s : State K} (h : Finished E S0 M L s) {c : CI} (hc : c ∈ s.chg)
    (ho : ∀ e ∈ slice s.line c, e.oldIdx ≠ none) :
    ((slice s.line c).map fun e => (e.oldIdx.getD 0, e.core)).Perm ((places c.start (slice M c)).map fun p => (p.1, p.2.core)) := by
  have hb := h.chg.bound c hc
  have hlen := h.chg.same.len
  obtain ⟨c1, c2⟩ := h.chg.cut hc
  have p1 := (places_slice h.move hb.1 (by omega) c1 c2).map fun p : Nat × Entry => (p.1, p.2.core)
  refine List.Perm.trans (List.Perm.of_eq ?_) p1
  have key : ∀ (k : Nat) (A B : List Entry), A.length = B.length →
      (∀ (i : Nat) (e f : Entry), A[i]? = some e → B[i]? = some f → e.oldIdx ≠ none ∧ e.oldIdx.getD (k + i) = f.oldIdx.getD (k + i) ∧ e.core = f.core) →
      A.map (fun e => (e.oldIdx.getD 0, e.core)) = (places k B).map fun p => (p.1, p.2.core) := by
    intro k A
    induction A generalizing k with
    | nil =>
      intro B hl _
      cases B with
      | nil => rfl
      | cons => simp at hl
    | cons a A ih =>
      intro B hl hh
      cases B with
      | nil => simp at hl
      | cons b B =>
        obtain ⟨q1, q2, q3⟩ := hh 0 a b rfl rfl
        rw [List.map_cons, places, List.map_cons, ih (k + 1) B (by simpa using hl) (by
          intro i e f he hf
          have := hh (i + 1) e f (by simpa using he) (by simpa using hf)
          have e1 : k + (i + 1) = k + 1 + i := by omega
          rwa [e1] at this)]
        congr 1
        rw [Nat.add_zero] at q2
        cases hv : a.oldIdx with
        | none => exact absurd hv q1
        | some v =>
          rw [hv] at q2
          simp only [Option.getD_some] at q2 ⊢
          rw [← q2, q3]
          rfl
  refine key c.start _ _ ?_ ?_
  · rw [slice_length hb.2, slice_length (by omega)]
  · intro i e f he hf
    have hlt : c.start + i < c.stop := by
      have := (List.getElem?_eq_some_iff.1 he).1
      rw [slice_length hb.2] at this
      omega
    have hme : e ∈ slice s.line c := List.mem_of_getElem? he
    rw [slice_get hlt] at he hf
    have := h.chg.same.place _ f e hf he
    exact ⟨ho e hme, this.1, this.2.1⟩

theorem places_blank (k : Nat) (l : List Entry) (h : ∀ e ∈ l, e.oldIdx = none) :
    (places k l).map (fun p => (p.1, p.2.core)) = (l.zipIdx k).map fun p => (p.2, p.1.core) := by
  induction l generalizing k with
  | nil => rfl
  | cons e l ih =>
    rw [places, List.map_cons, List.zipIdx_cons, List.map_cons, ih (k + 1) fun f hf => h f (by simp [hf]), h e (by simp)]
    rfl

theorem slice_nodup {M part : List Entry} {k : Nat} (ho : ∀ e ∈ part, e.oldIdx ≠ none)
    (hp : (part.map fun e => (e.oldIdx.getD 0, e.core)).Perm ((M.zipIdx k).map fun p => (p.2, p.1.core))) :
    (part.map Entry.oldIdx).Nodup ∧ ∀ e ∈ part, ∃ (i : Nat) (f : Entry), M[i]? = some f ∧ e.oldIdx = some (k + i) ∧ e.core = f.core := by
  constructor
  · have h1 := hp.map Prod.fst
    rw [List.map_map, List.map_map] at h1
    have h2 : ((M.zipIdx k).map (Prod.fst ∘ fun p : Entry × Nat => (p.2, p.1.core))) = List.range' k M.length := by
      show (M.zipIdx k).map Prod.snd = _
      rw [List.zipIdx_map_snd]
    rw [h2] at h1
    have h3 : (part.map (Prod.fst ∘ fun e : Entry => (e.oldIdx.getD 0, e.core))).Nodup := h1.nodup_iff.2 List.nodup_range'
    have h4 : part.map (Prod.fst ∘ fun e : Entry => (e.oldIdx.getD 0, e.core)) = (part.map Entry.oldIdx).map fun o => o.getD 0 := by
      rw [List.map_map]; rfl
    rw [h4] at h3
    exact List.Nodup.of_map _ h3
  · intro e he
    have : (e.oldIdx.getD 0, e.core) ∈ (M.zipIdx k).map fun p => (p.2, p.1.core) :=
      hp.mem_iff.1 (List.mem_map.2 ⟨e, he, rfl⟩)
    obtain ⟨⟨f, i⟩, h1, h2⟩ := List.mem_map.1 this
    rw [List.mem_zipIdx_iff_le_and_getElem?_sub] at h1
    simp only [Prod.mk.injEq] at h2
    refine ⟨i - k, f, h1.2, ?_, h2.2.symm⟩
    cases hv : e.oldIdx with
    | none => exact absurd hv (ho e he)
    | some v =>
      rw [hv] at h2
      simp only [Option.getD_some] at h2
      congr 1
      have := h1.1
      dsimp only at this
      omega

/-! ## Tags -/

/-- One entry of the line in a range: its place, its positions above and below, and its events. -/
structure Tag (K : Type) where
  e : Entry
  i : Nat
  x0 : K
  x1 : K
  main : OutputEvent K
  extra : Option (OutputEvent K)

/-- What the events of an entry look like. -/
structure TagOk (E : Env K) (t : Tag K) : Prop where
  seg : t.main.segIdx = t.e.oldSegId
  above : t.main.connectedAbove = (t.e.oldSeg.isSome || !t.e.enter)
  below : t.main.connectedBelow = !t.e.exit
  oldIdx : t.main.oldSweepIdx = t.e.oldIdx
  idx : t.main.connectedBelow = true → t.main.sweepIdx = some t.i
  x0 : t.main.connectedAbove = true → t.main.x0 = t.x0
  x1 : t.main.connectedBelow = true → t.main.x1 = t.x1
  start : t.main.connectedAbove = false → t.main.x0 = E.startX t.main.segIdx
  stop : t.main.connectedBelow = false → t.main.x1 = E.endX t.main.segIdx
  noExtra : t.e.oldSeg = none → t.extra = none
  extra : t.e.oldSeg ≠ none → ∃ ev, t.extra = some ev ∧ ev.segIdx = t.e.seg ∧ ev.connectedAbove = false ∧ ev.connectedBelow = true ∧
    ev.sweepIdx = some t.i ∧ ev.x0 = E.startX t.e.seg ∧ ev.x1 = t.x1

/-- The events of an entry. -/
def Tag.events (t : Tag K) : List (OutputEvent K) := t.main :: t.extra.toList

/-- The segments of a range: exact positions at the ends. -/
def Env.Exact (E : Env K) : Prop := ∀ x ∈ E.segs, E.isHorizontal x = false → E.atY x (E.startY x) = E.startX x ∧ E.atY x (E.endY x) = E.endX x

/-- The horizontal segments of an interval. -/
def horizOf (s : State K) (c : CI) : List Nat := match c.hz with | none => [] | some h => (s.horiz.drop h.1).take (h.2 - h.1)

/-- The events of a range, entry by entry; `T` in the order below the line, `To` in the order above. -/
structure Tagged (E : Env K) (s : State K) (M : List Entry) (c : CI) (evs : List (OutputEvent K)) (T To : List (Tag K)) : Prop where
  entries : T.map Tag.e = slice s.line c
  places : T.map Tag.i = List.range' c.start (c.stop - c.start)
  ok : ∀ t ∈ T, TagOk E t
  x1 : T.Pairwise fun a b => a.x1 ≤ b.x1
  perm : To.Perm T
  old : To.map (fun t => t.e.core) = (slice M c).map Entry.core
  oldPlace : ∀ (k : Nat) (t : Tag K), To[k]? = some t → t.e.oldIdx = some (c.start + k)
  x0 : To.Pairwise fun a b => a.x0 ≤ b.x0
  events : evs.Perm (T.flatMap Tag.events ++ (horizOf s c).map (horizEvent E))
  sorted : evs.Pairwise fun a b => a.smallerX ≤ b.smallerX
  x0In : EpsOrd E s.y ((slice M c).map Entry.oldSegId) → ∀ t ∈ T, E.lower t.e.oldSegId s.y ≤ t.x0 ∧ t.x0 ≤ E.upper t.e.oldSegId s.y
  x1In : EpsOrd E s.y ((slice s.line c).map Entry.seg) → ∀ t ∈ T, E.lower t.e.seg s.y ≤ t.x1 ∧ t.x1 ≤ E.upper t.e.seg s.y

/-- The tag of an entry in the general case. -/
def mkTag (E : Env K) (e : Entry) (i : Nat) (x0 x1 : K) : Tag K :=
  ⟨e, i, x0, x1, exactEnds E { mainEvent E e x0 with sweepIdx := some i, x1 := x1 }, (extraEvent e i x1).map (exactEnds E)⟩

theorem mkTag_ok (E : Env K) (e : Entry) (i : Nat) (x0 x1 : K) : TagOk E (mkTag E e i x0 x1) := by
  constructor
  case seg => rfl
  case above => rfl
  case below => rfl
  case oldIdx => rfl
  case idx => intro _; rfl
  case x0 => intro h; exact if_pos h
  case x1 => intro h; exact if_pos h
  case start => intro h; exact if_neg (by rw [Bool.not_eq_true]; exact h)
  case stop => intro h; exact if_neg (by rw [Bool.not_eq_true]; exact h)
  case noExtra =>
    intro h
    change e.oldSeg = none at h
    show (extraEvent e i x1).map _ = none
    unfold extraEvent
    rw [h]; rfl
  case extra =>
    intro h
    change e.oldSeg ≠ none at h
    have h' : e.oldSeg.isSome = true := by rwa [Option.isSome_iff_ne_none]
    refine ⟨exactEnds E ⟨x1, false, x1, true, e.seg, some i, none⟩, ?_, rfl, rfl, rfl, rfl, ?_, ?_⟩
    · show (extraEvent e i x1).map _ = _
      unfold extraEvent
      rw [if_pos h']; rfl
    · rfl
    · rfl

theorem perm_lift {α β : Type} (f : α → β) {m : List β} : ∀ {l : List α}, (l.map f).Perm m → ∃ l' : List α, l'.Perm l ∧ l'.map f = m := by
  induction m with
  | nil =>
    intro l h
    have : l = [] := by simpa using h.eq_nil
    exact ⟨[], by rw [this], rfl⟩
  | cons b m ih =>
    intro l h
    have hb : b ∈ l.map f := h.mem_iff.2 (by simp)
    obtain ⟨a, ha, hfa⟩ := List.mem_map.1 hb
    obtain ⟨l1, l2, rfl⟩ := List.append_of_mem ha
    have h2 : ((l1 ++ l2).map f).Perm m := by
      rw [List.map_append, List.map_cons, hfa] at h
      rw [List.map_append]
      exact (List.perm_cons b).1 (List.perm_middle.symm.trans h)
    obtain ⟨l', h3, h4⟩ := ih h2
    exact ⟨a :: l', (h3.cons a).trans List.perm_middle.symm, by rw [List.map_cons, h4, hfa]⟩

theorem fillOld_some {start : Nat} (es : List Entry) : ∀ {buf old : List Entry}, fillOld start es buf = some old → ∀ e ∈ es, e.oldIdx ≠ none := by
  induction es with
  | nil => intro _ _ _; simp
  | cons e es ih =>
    intro buf old h
    simp only [fillOld] at h
    split at h
    · simp at h
    rename_i o ho
    split_ifs at h with hc
    intro f hf
    rcases List.mem_cons.1 hf with rfl | hf
    · rw [ho]; simp
    · exact ih h f hf

theorem resizeBuf_length (buf : List Entry) (n : Nat) : (resizeBuf buf n).length = n := by
  unfold resizeBuf
  rw [List.length_append, List.length_take, List.length_replicate]
  omega

theorem le_sorted (l : List (OutputEvent K)) : (stableSort OutputEvent.le l).Pairwise fun a b => a.smallerX ≤ b.smallerX := by
  have := pairwise_stableSort (le := OutputEvent.le (K := K)) (by
    intro a b c
    simp only [OutputEvent.le, Bool.or_eq_true, Bool.and_eq_true, decide_eq_true_eq]
    rintro (h1 | ⟨h1, h2⟩) (h3 | ⟨h3, h4⟩)
    · exact .inl (h1.trans h3)
    · exact .inl (h3 ▸ h1)
    · exact .inl (h1 ▸ h3)
    · exact .inr ⟨h1.trans h3, h2.trans h4⟩) (by
    intro a b
    simp only [OutputEvent.le, Bool.or_eq_true, Bool.and_eq_true, decide_eq_true_eq]
    rcases lt_trichotomy a.smallerX b.smallerX with h | h | h
    · exact .inl (.inl h)
    · rcases le_total a.largerX b.largerX with h2 | h2
      · exact .inl (.inr ⟨h, h2⟩)
      · exact .inr (.inr ⟨h.symm, h2⟩)
    · exact .inr (.inl h)) l
  refine this.imp ?_
  intro a b h
  simp only [OutputEvent.le, Bool.or_eq_true, Bool.and_eq_true, decide_eq_true_eq] at h
  rcases h with h | h
  · exact h.le
  · exact h.1.le


theorem flatMap_events (T : List (Tag K)) : (T.flatMap Tag.events).Perm (T.map Tag.main ++ T.filterMap Tag.extra) := by
  induction T with
  | nil => simp
  | cons t T ih =>
    rw [List.flatMap_cons, List.map_cons, List.filterMap_cons]
    show (t.main :: t.extra.toList ++ _).Perm _
    rw [List.cons_append, List.cons_append]
    apply List.Perm.cons
    cases h : t.extra with
    | none => simpa using ih
    | some v =>
      dsimp only [Option.toList]
      rw [List.cons_append, List.nil_append]
      exact (ih.cons v).trans List.perm_middle.symm

theorem zip_fst {α β γ δ : Type} (g : α → γ → δ) (ps : List (α × β)) (xs : List γ) :
    (ps.zip xs).map (fun p => g p.1.1 p.2) = ((ps.map Prod.fst).zip xs).map fun p => g p.1 p.2 := by
  rw [List.zip_map_left, List.map_map]
  rfl

theorem Finished.mem_line {E : Env K} {S0 : List Nat} {M L : List Entry} {s : State K} (h : Finished E S0 M L s) {e : Entry} (he : e ∈ s.line) :
    e.seg ∈ E.segs ∧ E.isHorizontal e.seg = false := by
  have h1 : e.seg ∈ lineIds s.line := mem_lineIds.2 ⟨e, he, by simp [Entry.ids]⟩
  have h2 := (h.mem _).1 (h.ids_perm.mem_iff.1 h1)
  exact ⟨h2.1, h2.2.1⟩

theorem Finished.mem_old {E : Env K} {S0 : List Nat} {M L : List Entry} {s : State K} (h : Finished E S0 M L s) {e : Entry} (he : e ∈ s.line)
    {o : Nat} (ho : e.oldSeg = some o) : o ∈ E.segs ∧ E.isHorizontal o = false := by
  have : o ∈ lineIds M := h.ids_perm.mem_iff.1 (mem_lineIds.2 ⟨e, he, by simp [Entry.ids, ho]⟩)
  have := (h.mem o).1 this
  exact ⟨this.1, this.2.1⟩

theorem nextRange_tags {E : Env K} {S0 : List Nat} {M L : List Entry} {s : State K} (hF : Finished E S0 M L s) (hE : E.Exact) {c : CI} (hc : c ∈ s.chg)
    {buf buf' : List Entry} {evs : List (OutputEvent K)} (h : nextRange E s buf c = some (buf', evs)) : ∃ T To, Tagged E s M c evs T To := by
  have hb := hF.chg.bound c hc
  have hlenM : (slice M c).length = c.stop - c.start := by
    apply slice_length
    have := hF.move.len
    have := hF.chg.same.len
    omega
  have hblank : ∀ e ∈ slice M c, e.oldIdx = none := by
    intro e he
    obtain ⟨i, _, _, h3⟩ := mem_slice.1 he
    exact (hF.blank e (List.mem_of_getElem? h3)).2
  unfold nextRange at h
  by_cases hs : c.stop - c.start = 1 ∧ c.hz = none
  · rw [if_pos hs] at h
    simp only [Option.map_eq_some_iff, Prod.mk.injEq] at h
    obtain ⟨evs', h, -, rfl⟩ := h
    unfold singleEvents at h
    split at h
    · simp at h
    rename_i e he
    have hsl : slice s.line c = [e] := by
      apply List.ext_getElem?
      intro k
      by_cases hk : c.start + k < c.stop
      · rw [slice_get hk]
        have : k = 0 := by omega
        subst this
        rw [Nat.add_zero, he]; rfl
      · rw [List.getElem?_eq_none (by rw [slice_length hb.2]; omega), List.getElem?_eq_none (by simp; omega)]
    have ho : ∀ f ∈ slice s.line c, f.oldIdx ≠ none := by
      intro f hf
      obtain ⟨i, h1, h2, h3⟩ := mem_slice.1 hf
      exact hF.chg.sure c hc hs.2 i f h1 h2 h3
    have hp := hF.slice_perm hc ho
    rw [places_blank _ _ hblank, hsl] at hp
    have hq := (slice_nodup (by rw [hsl] at ho; exact ho) hp).2 e (by simp)
    obtain ⟨i, f, hi, hei, hcore⟩ := hq
    have hi0 : i = 0 := by
      have := (List.getElem?_eq_some_iff.1 hi).1
      omega
    subst hi0
    have hM : slice M c = [f] := by
      apply List.ext_getElem?
      intro k
      by_cases hk : k = 0
      · subst hk; rw [hi]; rfl
      · rw [List.getElem?_eq_none (by omega), List.getElem?_eq_none (by simp; omega)]
    have heL : e ∈ s.line := List.mem_of_getElem? he
    have hkind := hF.kind heL
    have hex := hE _ (hF.mem_line heL).1 (hF.mem_line heL).2
    have hz : horizOf s c = [] := by unfold horizOf; rw [hs.2]
    have hfold : f.oldSegId = e.oldSegId := by
      simp only [Entry.core, Entry.mk.injEq] at hcore
      unfold Entry.oldSegId
      rw [hcore.1, hcore.2.2.2.2.2]
    have main : ∀ t : Tag K, t.e = e → t.i = c.start → TagOk E t → evs'.Perm t.events → (evs'.Pairwise fun a b => a.smallerX ≤ b.smallerX) →
        t.x0 = E.atY e.seg s.y → t.x1 = E.atY e.seg s.y → E.atY e.oldSegId s.y = E.atY e.seg s.y →
        ∃ T To, Tagged E s M c evs' T To := by
      intro t h1 h2 h3 h4 h5 h6 h7 h8
      refine ⟨[t], [t], ?_, ?_, ?_, by simp, .rfl, ?_, ?_, by simp, ?_, h5, ?_, ?_⟩
      rotate_left 6
      · intro ho t' ht'
        rw [List.mem_singleton] at ht'
        have := ho.mid e.oldSegId (by rw [hM]; simp [hfold])
        rw [ht', h1, h6, ← h8]; exact this
      · intro ho t' ht'
        rw [List.mem_singleton] at ht'
        have := ho.mid e.seg (by rw [hsl]; simp)
        rw [ht', h1, h7]; exact this
      · rw [hsl, List.map_singleton, h1]
      · rw [hs.1, List.map_singleton, h2]; rfl
      · intro t' ht'
        rw [List.mem_singleton] at ht'
        rw [ht']; exact h3
      · rw [hM, List.map_singleton, List.map_singleton, h1, hcore]
      · intro k t' hk
        cases k with
        | zero =>
          simp only [List.getElem?_cons_zero, Option.some.injEq] at hk
          rw [← hk, h1, hei]
        | succ k => simp at hk
      · rw [hz, List.map_nil, List.append_nil, List.flatMap_singleton]
        exact h4
    rcases hkind with ⟨k1, k2, k3⟩ | ⟨k1, k2, k3, k4⟩ | ⟨o, k1, k2, k3, k4, k5, k6, k7, k8⟩ | ⟨k1, k2, k3, k4⟩
    · rw [k3] at h
      simp only [Option.some.injEq] at h
      subst h
      refine main ⟨e, c.start, E.atY e.seg s.y, E.atY e.seg s.y, _, none⟩ rfl rfl ?_ (.refl _) (by simp) rfl rfl (by simp [Entry.oldSegId, k3])
      constructor <;> simp [k1, k2, k3, Entry.oldSegId]
    · rw [k3] at h
      simp only [Option.some.injEq] at h
      subst h
      refine main ⟨e, c.start, E.atY e.seg s.y, E.atY e.seg s.y, _, none⟩ rfl rfl ?_ (.refl _) (by simp) rfl rfl (by simp [Entry.oldSegId, k3])
      constructor <;> simp [k1, k2, k3, Entry.oldSegId]
      rw [← k4]; exact hex.1
    · rw [k3] at h
      simp only [Option.some.injEq] at h
      subst h
      have hx := hex.1
      rw [k4] at hx
      refine main ⟨e, c.start, E.atY e.seg s.y, E.atY e.seg s.y, _, some _⟩ rfl rfl ?_ (.refl _) ?_ rfl rfl (by
        have := hE o (hF.mem_old heL k3).1 (hF.mem_old heL k3).2
        show E.atY (e.oldSeg.getD e.seg) s.y = _
        rw [k3, Option.getD_some, hx, ← k7, ← this.2, k8])
      · constructor <;> simp [k1, k2, k3, Entry.oldSegId]
        · rw [k7]; exact hx
        · exact hx
      · simp [OutputEvent.smallerX]
    · rw [k3] at h
      simp only [Option.some.injEq] at h
      subst h
      refine main ⟨e, c.start, E.atY e.seg s.y, E.atY e.seg s.y, _, none⟩ rfl rfl ?_ (.refl _) (by simp) rfl rfl (by simp [Entry.oldSegId, k3])
      constructor <;> simp [k1, k2, k3, Entry.oldSegId]
      rw [← k4]; exact hex.2
  · rw [if_neg hs] at h
    dsimp only at h
    change (match fillOld c.start (slice s.line c) (resizeBuf buf (c.stop - c.start)) with | none => none | some old => _) = _ at h
    have hlenp : (slice s.line c).length = c.stop - c.start := slice_length hb.2
    cases hfo : fillOld c.start (slice s.line c) (resizeBuf buf (c.stop - c.start)) with
    | none => rw [hfo] at h; simp at h
    | some old =>
    rw [hfo] at h
    dsimp only at h
    have ho := fillOld_some _ hfo
    have hp := hF.slice_perm hc ho
    rw [places_blank _ _ hblank] at hp
    obtain ⟨hn, hcore⟩ := slice_nodup ho hp
    obtain ⟨hol, hop, hoi⟩ := fillOld_perm hfo (by rw [resizeBuf_length, hlenp]) hn
    obtain ⟨xs0, a1, a2, a3, -, a5⟩ := oldPass_spec E s.y (feasible E s.y Entry.oldSegId old) E.negInf (feasible_sorted _ _ _ _)
    rw [a3] at h
    rw [zip_fst (fun e x => mainEvent E e x)] at h
    have hfm : (feasible E s.y Entry.oldSegId old).map Prod.fst = old := feasible_map _ _ _ _
    rw [hfm] at h
    have a1' : xs0.length = old.length := by
      rw [a1, ← hfm, List.length_map, hfm]
    split at h
    · simp at h
    rename_i r hr
    rw [← List.append_nil (List.map _ (old.zip xs0))] at hr
    change newPass E s.y c.start (feasible E s.y Entry.seg (slice s.line c)) 0 _ E.negInf = some r at hr
    have hfm2 : (feasible E s.y Entry.seg (slice s.line c)).map Prod.fst = slice s.line c := feasible_map _ _ _ _
    have hbl : ((old.zip xs0).map fun p => mainEvent E p.1 p.2).length = c.stop - c.start := by
      rw [List.length_map, List.length_zip, a1', min_self, hol, hlenp]
    obtain ⟨xs1, base', b1, b2, -, b4, b5, b6, -, b8⟩ := newPass_spec _ hr (feasible_sorted _ _ _ _) (by
      have : ((feasible E s.y Entry.seg (slice s.line c)).map fun p => p.1.oldIdx) = (slice s.line c).map Entry.oldIdx := by
        conv_rhs => rw [← hfm2]
        rw [List.map_map]; rfl
      rw [this]; exact hn) (by
      intro p hp' o hpo
      rw [hbl]
      have hm : p.1 ∈ slice s.line c := by rw [← hfm2]; exact List.mem_map_of_mem hp'
      obtain ⟨i, f, q1, q2, -⟩ := hcore _ hm
      rw [hpo] at q2
      have q3 := (List.getElem?_eq_some_iff.1 q1).1
      rw [hlenM] at q3
      simp only [Option.some.injEq] at q2
      omega)
    generalize hT : ((slice s.line c).zip xs1).zipIdx c.start = Z at *
    have b1' : xs1.length = (slice s.line c).length := by
      rw [b1, ← hfm2, List.length_map, hfm2]
    let T : List (Tag K) := Z.map fun q => mkTag E q.1.1 q.2 (xs0.getD (q.1.1.oldIdx.getD 0 - c.start) E.negInf) q.1.2
    have hTe : T.map Tag.e = slice s.line c := by
      show (Z.map _).map _ = _
      rw [List.map_map, ← hT]
      show (((slice s.line c).zip xs1).zipIdx c.start).map (fun q => q.1.1) = _
      have : (fun q : (Entry × K) × Nat => q.1.1) = Prod.fst ∘ Prod.fst := rfl
      rw [this, ← List.map_map, List.zipIdx_map_fst]
      exact List.map_fst_zip (by omega)
    have hTx : T.map Tag.x1 = xs1 := by
      show (Z.map _).map _ = _
      rw [List.map_map, ← hT]
      show (((slice s.line c).zip xs1).zipIdx c.start).map (fun q => q.1.2) = _
      have : (fun q : (Entry × K) × Nat => q.1.2) = Prod.snd ∘ Prod.fst := rfl
      rw [this, ← List.map_map, List.zipIdx_map_fst]
      exact List.map_snd_zip (by omega)
    have hTi : T.map Tag.i = List.range' c.start (c.stop - c.start) := by
      show (Z.map _).map _ = _
      rw [List.map_map, ← hT]
      show (((slice s.line c).zip xs1).zipIdx c.start).map Prod.snd = _
      rw [List.zipIdx_map_snd, List.length_zip, b1', min_self, hlenp]
    obtain ⟨To, hTo, hToe⟩ := perm_lift Tag.e (l := T) (m := old) (by rw [hTe]; exact hop.symm)
    have hplace : ∀ (k : Nat) (t : Tag K), To[k]? = some t → t.e.oldIdx = some (c.start + k) := by
      intro k t ht
      apply hoi
      rw [← hToe, List.getElem?_map, ht]; rfl
    have hTx0 : To.map Tag.x0 = xs0 := by
      apply List.ext_getElem?
      intro k
      rw [List.getElem?_map]
      cases hk : To[k]? with
      | none =>
        have : To.length = old.length := by rw [← hToe, List.length_map]
        have := List.getElem?_eq_none_iff.1 hk
        rw [List.getElem?_eq_none (by omega)]; rfl
      | some t =>
        have hl : To.length = old.length := by rw [← hToe, List.length_map]
        have hlt := (List.getElem?_eq_some_iff.1 hk).1
        have h1 := hplace k t hk
        have htT : t ∈ T := hTo.mem_iff.1 (List.mem_of_getElem? hk)
        obtain ⟨q, hq, rfl⟩ := List.mem_map.1 htT
        change q.1.1.oldIdx = _ at h1
        show some (xs0.getD (q.1.1.oldIdx.getD 0 - c.start) E.negInf) = _
        rw [h1, Option.getD_some, Nat.add_sub_cancel_left, List.getD_eq_getElem?_getD, List.getElem?_eq_getElem (by omega)]
        rfl
    have hmain : base'.map (exactEnds E) = To.map Tag.main := by
      apply List.ext_getElem?
      intro k
      have hl : To.length = old.length := by rw [← hToe, List.length_map]
      rw [List.getElem?_map, List.getElem?_map]
      cases hk : To[k]? with
      | none =>
        have := List.getElem?_eq_none_iff.1 hk
        rw [List.getElem?_eq_none (by omega)]; rfl
      | some t =>
        have hlt := (List.getElem?_eq_some_iff.1 hk).1
        have h1 := hplace k t hk
        have htT : t ∈ T := hTo.mem_iff.1 (List.mem_of_getElem? hk)
        have hold : old[k]? = some t.e := by rw [← hToe, List.getElem?_map, hk]; rfl
        obtain ⟨q, hq, rfl⟩ := List.mem_map.1 htT
        have hx0k : (mkTag E q.1.1 q.2 (xs0.getD (q.1.1.oldIdx.getD 0 - c.start) E.negInf) q.1.2).x0 = xs0[k]'(by omega) := by
          have : (To.map Tag.x0)[k]? = xs0[k]? := by rw [hTx0]
          rw [List.getElem?_map, hk, List.getElem?_eq_getElem (by omega), Option.map_some, Option.some.injEq] at this
          exact this
        have hqZ := hq
        rw [← hT] at hqZ
        obtain ⟨⟨e, x⟩, j⟩ := q
        rw [List.mk_mem_zipIdx_iff_le_and_getElem?_sub] at hqZ
        obtain ⟨hj, hzj⟩ := hqZ
        rw [List.getElem?_zip_eq_some] at hzj
        obtain ⟨he, hx⟩ := hzj
        have hp' : ∃ p, (feasible E s.y Entry.seg (slice s.line c))[j - c.start]? = some p ∧ p.1 = e := by
          rw [← hfm2, List.getElem?_map] at he
          dsimp only at he
          cases hv : (feasible E s.y Entry.seg (slice s.line c))[j - c.start]? with
          | none => rw [hv] at he; simp at he
          | some p => rw [hv] at he; simp only [Option.map_some, Option.some.injEq] at he; exact ⟨p, rfl, he⟩
        obtain ⟨p, hp1, rfl⟩ := hp'
        obtain ⟨o, ev, c1, c2, c3, c4, c5⟩ := b6 _ p x hp1 hx
        change p.1.oldIdx = _ at h1
        rw [h1, Option.some.injEq] at c1
        have hok : o - c.start = k := by omega
        rw [hok] at c3 c5
        rw [c5]
        have hev : ev = mainEvent E p.1 (xs0[k]'(by omega)) := by
          rw [List.getElem?_map] at c3
          have : (old.zip xs0)[k]? = some (p.1, xs0[k]'(by omega)) := by
            rw [List.getElem?_zip_eq_some]
            exact ⟨hold, List.getElem?_eq_getElem _⟩
          rw [this] at c3
          simpa using c3.symm
        have hx0k' : xs0.getD (p.1.oldIdx.getD 0 - c.start) E.negInf = xs0[k]'(by omega) := hx0k
        rw [Option.map_some, Option.map_some]
        congr 1
        show exactEnds E _ = exactEnds E _
        congr 1
        rw [hev]
        dsimp only
        rw [hx0k']
        have : c.start + 0 + (j - c.start) = j := by
          omega
        rw [this]
    have hextra : (((feasible E s.y Entry.seg (slice s.line c)).zip xs1).zipIdx (c.start + 0)).filterMap (fun q => (extraEvent q.1.1.1 q.2 q.1.2).map (exactEnds E)) =
        T.filterMap Tag.extra := by
      show _ = (Z.map _).filterMap _
      rw [List.filterMap_map, ← hT]
      conv_rhs => rw [← hfm2]
      rw [List.zip_map_left, List.zipIdx_map, List.filterMap_map]
      rfl
    simp only [Option.some.injEq, Prod.mk.injEq] at h
    obtain ⟨-, h⟩ := h
    have hToCore : To.map (fun t => t.e.core) = (slice M c).map Entry.core := by
      have : To.map (fun t => t.e.core) = old.map Entry.core := by rw [← hToe, List.map_map]; rfl
      rw [this]
      apply List.ext_getElem?
      intro k
      rw [List.getElem?_map, List.getElem?_map]
      cases hk : old[k]? with
      | none =>
        have := List.getElem?_eq_none_iff.1 hk
        rw [List.getElem?_eq_none (by omega)]
      | some e =>
        have h1 := hoi k e hk
        obtain ⟨i, f, q1, q2, q3⟩ := hcore e (hop.mem_iff.1 (List.mem_of_getElem? hk))
        rw [h1, Option.some.injEq] at q2
        have : i = k := by omega
        subst this
        rw [q1, Option.map_some, Option.map_some, q3]
    refine ⟨T, To, hTe, hTi, ?_, ?_, hTo, hToCore, hplace, ?_, ?_, ?_, ?_, ?_⟩
    · intro t ht
      obtain ⟨q, _, rfl⟩ := List.mem_map.1 ht
      exact mkTag_ok _ _ _ _ _
    · have := b2
      rw [← hTx, List.pairwise_map] at this
      exact this
    · have := a2
      rw [← hTx0, List.pairwise_map] at this
      exact this
    · rw [← h]
      refine (stableSort_perm _ _).trans ?_
      rw [b4, List.append_nil, List.map_append, List.map_filterMap, hmain, hextra]
      refine List.Perm.append ?_ (.refl _)
      exact ((hTo.map _).append_right _).trans (flatMap_events T).symm
    · rw [← h]; exact le_sorted _
    · intro ho' t ht
      have hids : old.map Entry.oldSegId = (slice M c).map Entry.oldSegId := by
        have h1 : (old.map Entry.core).map Entry.oldSegId = old.map Entry.oldSegId := by rw [List.map_map]; rfl
        have h2 : ((slice M c).map Entry.core).map Entry.oldSegId = (slice M c).map Entry.oldSegId := by rw [List.map_map]; rfl
        rw [← h1, ← h2, ← hToCore, ← hToe, List.map_map (l := To)]; rfl
      rw [← hids] at ho'
      obtain ⟨k, hk⟩ := List.mem_iff_getElem?.1 (hTo.mem_iff.2 ht)
      have hke : old[k]? = some t.e := by rw [← hToe, List.getElem?_map, hk]; rfl
      have hkx : xs0[k]? = some t.x0 := by rw [← hTx0, List.getElem?_map, hk]; rfl
      rw [← hfm, List.getElem?_map, Option.map_eq_some_iff] at hke
      obtain ⟨p, hp1, hp2⟩ := hke
      obtain ⟨f1, f2, f3⟩ := feasible_in E s.y Entry.oldSegId old (List.mem_of_getElem? hp1)
      obtain ⟨g1, g2⟩ := a5 (p, t.x0) (List.mem_of_getElem? (i := k) (List.getElem?_zip_eq_some.2 ⟨hp1, hkx⟩)) (f3 ho')
      rw [hp2] at f1 f2
      exact ⟨f1.trans g1, g2.trans f2⟩
    · intro ho' t ht
      obtain ⟨k, hk⟩ := List.mem_iff_getElem?.1 ht
      have hke : (slice s.line c)[k]? = some t.e := by rw [← hTe, List.getElem?_map, hk]; rfl
      have hkx : xs1[k]? = some t.x1 := by rw [← hTx, List.getElem?_map, hk]; rfl
      rw [← hfm2, List.getElem?_map, Option.map_eq_some_iff] at hke
      obtain ⟨p, hp1, hp2⟩ := hke
      obtain ⟨f1, f2, f3⟩ := feasible_in E s.y Entry.seg (slice s.line c) (List.mem_of_getElem? hp1)
      obtain ⟨g1, g2⟩ := b8 (p, t.x1) (List.mem_of_getElem? (i := k) (List.getElem?_zip_eq_some.2 ⟨hp1, hkx⟩)) (f3 ho')
      rw [hp2] at f1 f2
      exact ⟨f1.trans g1, g2.trans f2⟩

end Verif.Sweep
