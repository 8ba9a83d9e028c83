import Verif.Sweep.Tags
import Verif.Topo.RangeStep

/-! The events of a range are a legal range for the topology. -/

namespace Verif.Sweep
open Verif.Curve Verif.Range Verif.Topo
set_option linter.unusedSectionVars false

variable {K : Type} [LinearOrder K]

def Tag.oldEv (t : Tag K) : Option (OutputEvent K) := if t.main.connectedAbove then some t.main else none
def Tag.newEv (t : Tag K) : Option (OutputEvent K) := if t.main.connectedBelow then some t.main else t.extra

theorem filter_above {E : Env K} (T : List (Tag K)) (hok : ∀ t ∈ T, TagOk E t) :
    (T.flatMap Tag.events).filter (fun e => e.connectedAbove) = T.filterMap Tag.oldEv := by
  induction T with
  | nil => rfl
  | cons t T ih =>
    rw [List.flatMap_cons, List.filter_append, ih fun t' h' => hok t' (by simp [h']), List.filterMap_cons]
    have ht := hok t (by simp)
    have hex : ∀ v, t.extra = some v → v.connectedAbove = false := by
      intro v hv
      have : t.e.oldSeg ≠ none := by
        intro h
        rw [ht.noExtra h] at hv; simp at hv
      obtain ⟨ev, h1, _, h3, _⟩ := ht.extra this
      rw [hv, Option.some.injEq] at h1
      rw [h1]; exact h3
    unfold Tag.events Tag.oldEv
    cases hx : t.extra with
    | none =>
      by_cases hm : t.main.connectedAbove = true
      · simp [hm]
      · simp [hm]
    | some v =>
      have := hex v hx
      by_cases hm : t.main.connectedAbove = true
      · simp [hm, this]
      · simp [hm, this]

theorem Kind.exitOf {E : Env K} {y : K} {e : Entry} (h : Kind E y e) (ho : e.oldSeg ≠ none) : e.exit = true ∧ e.enter = true := by
  rcases h with ⟨k1, k2, k3⟩ | ⟨k1, k2, k3, k4⟩ | ⟨o, k1, k2, k3, k4, k5, k6, k7, k8⟩ | ⟨k1, k2, k3, k4⟩
  · exact absurd k3 ho
  · exact absurd k3 ho
  · exact ⟨k2, k1⟩
  · exact absurd k3 ho

theorem filter_below {E : Env K} {y : K} (T : List (Tag K)) (hok : ∀ t ∈ T, TagOk E t) (hk : ∀ t ∈ T, Kind E y t.e) :
    (T.flatMap Tag.events).filter (fun e => e.connectedBelow) = T.filterMap Tag.newEv := by
  induction T with
  | nil => rfl
  | cons t T ih =>
    rw [List.flatMap_cons, List.filter_append, ih (fun t' h' => hok t' (by simp [h'])) (fun t' h' => hk t' (by simp [h'])), List.filterMap_cons]
    have ht := hok t (by simp)
    have hkt := hk t (by simp)
    have hex : ∀ v, t.extra = some v → v.connectedBelow = true ∧ t.main.connectedBelow = false := by
      intro v hv
      have : t.e.oldSeg ≠ none := by
        intro h
        rw [ht.noExtra h] at hv; simp at hv
      obtain ⟨ev, h1, _, _, h4, _⟩ := ht.extra this
      rw [hv, Option.some.injEq] at h1
      rw [h1]
      refine ⟨h4, ?_⟩
      rw [ht.below, (hkt.exitOf this).1]; rfl
    unfold Tag.events Tag.newEv
    cases hx : t.extra with
    | none =>
      by_cases hm : t.main.connectedBelow = true
      · simp [hm]
      · simp [hm]
    | some v =>
      obtain ⟨h1, h2⟩ := hex v hx
      simp [h1, h2]

theorem oldEv_seg {E : Env K} {y : K} {t : Tag K} (h : TagOk E t) (hk : Kind E y t.e) : t.oldEv.map OutputEvent.segIdx = t.e.oldOf := by
  unfold Tag.oldEv Entry.oldOf
  have h1 := h.above
  have h2 := h.seg
  unfold Entry.oldSegId at h2
  rcases hk with ⟨k1, k2, k3⟩ | ⟨k1, k2, k3, k4⟩ | ⟨o, k1, k2, k3, k4, k5, k6, k7, k8⟩ | ⟨k1, k2, k3, k4⟩ <;> simp_all

theorem newEv_seg {E : Env K} {y : K} {t : Tag K} (h : TagOk E t) (hk : Kind E y t.e) : t.newEv.map OutputEvent.segIdx = t.e.newOf := by
  unfold Tag.newEv Entry.newOf Entry.willReallyExit
  have h1 := h.below
  have h2 := h.seg
  have h3 := h.noExtra
  have h4 := h.extra
  unfold Entry.oldSegId at h2
  rcases hk with ⟨k1, k2, k3⟩ | ⟨k1, k2, k3, k4⟩ | ⟨o, k1, k2, k3, k4, k5, k6, k7, k8⟩ | ⟨k1, k2, k3, k4⟩
  · simp_all
  · simp_all
  · obtain ⟨ev, q1, q2, _⟩ := h4 (by rw [k3]; simp)
    simp_all
  · simp_all

theorem events_ids {E : Env K} {y : K} {t : Tag K} (h : TagOk E t) (hk : Kind E y t.e) : (t.events.map OutputEvent.segIdx).Perm t.e.ids := by
  unfold Tag.events Entry.ids
  have h2 := h.seg
  unfold Entry.oldSegId at h2
  cases ho : t.e.oldSeg with
  | none =>
    rw [h.noExtra ho]
    simp [h2, ho]
  | some o =>
    obtain ⟨ev, q1, q2, _⟩ := h.extra (by rw [ho]; simp)
    rw [q1]
    simp only [Option.toList, List.map_cons, List.map_nil]
    rw [h2, q2, ho]
    exact List.Perm.swap _ _ _

theorem oldSegs_core' (l : List Entry) : oldSegs (l.map Entry.core) = oldSegs l := oldSegs_core l

theorem filterMap_pairwise {α β : Type} {R : α → α → Prop} {S : β → β → Prop} (f : α → Option β)
    (H : ∀ a b, R a b → ∀ x ∈ f a, ∀ y ∈ f b, S x y) {l : List α} (h : l.Pairwise R) : (l.filterMap f).Pairwise S := by
  rw [List.pairwise_filterMap]
  exact h.imp fun {a b} hab x hx y hy => H a b hab x hx y hy

variable {E : Env K} {S0 : List Nat} {M L : List Entry} {s : State K} {c : CI} {evs : List (OutputEvent K)} {T To : List (Tag K)}

theorem Tagged.kind (hF : Finished E S0 M L s) (h : Tagged E s M c evs T To) : ∀ t ∈ T, t.e ∈ slice s.line c ∧ t.e ∈ s.line ∧ Kind E s.y t.e := by
  intro t ht
  have h1 : t.e ∈ slice s.line c := by rw [← h.entries]; exact List.mem_map_of_mem ht
  obtain ⟨i, _, _, h3⟩ := mem_slice.1 h1
  exact ⟨h1, List.mem_of_getElem? h3, hF.kind (List.mem_of_getElem? h3)⟩

theorem Tagged.seg_perm (hF : Finished E S0 M L s) (h : Tagged E s M c evs T To) :
    (evs.map OutputEvent.segIdx).Perm (lineIds (slice s.line c) ++ horizOf s c) := by
  refine (h.events.map _).trans ?_
  rw [List.map_append, List.map_map]
  have hz : (horizOf s c).map (OutputEvent.segIdx ∘ horizEvent E) = horizOf s c := List.map_id _
  rw [hz]
  apply List.Perm.append_right
  rw [← h.entries]
  have hk := h.kind hF
  have hok := h.ok
  clear h hz
  induction T with
  | nil => simp [lineIds]
  | cons t T ih =>
    rw [List.flatMap_cons, List.map_append, List.map_cons]
    show List.Perm _ (t.e.ids ++ lineIds (T.map Tag.e))
    exact (events_ids (hok t (by simp)) (hk t (by simp)).2.2).append (ih (fun t' h' => hk t' (by simp [h'])) fun t' h' => hok t' (by simp [h']))

theorem slice_sublist (l : List Entry) (c : CI) : (slice l c).Sublist l := (List.take_sublist _ _).trans (List.drop_sublist _ _)

theorem horizOf_sublist (s : State K) (c : CI) : (horizOf s c).Sublist s.horiz := by
  unfold horizOf
  cases c.hz with
  | none => exact List.nil_sublist _
  | some h => exact (List.take_sublist _ _).trans (List.drop_sublist _ _)

theorem sublist_flatMap {α β : Type} (f : α → List β) {l l' : List α} (h : l.Sublist l') : (l.flatMap f).Sublist (l'.flatMap f) := by
  induction h with
  | slnil => simp
  | cons a _ ih => rw [List.flatMap_cons]; exact ih.trans (List.sublist_append_right _ _)
  | cons_cons a _ ih => rw [List.flatMap_cons, List.flatMap_cons]; exact (List.Sublist.refl _).append ih

theorem Finished.range_nodup (hF : Finished E S0 M L s) (c : CI) : (lineIds (slice s.line c) ++ horizOf s c).Nodup := by
  have hn : (lineIds s.line).Nodup := hF.ids_perm.nodup_iff.2 hF.nodup
  rw [List.nodup_append]
  refine ⟨hn.sublist (sublist_flatMap _ (slice_sublist _ _)), hF.horizNodup.sublist (horizOf_sublist _ _), ?_⟩
  intro a ha b hb hab
  subst hab
  have h1 : a ∈ lineIds s.line := (sublist_flatMap _ (slice_sublist _ _)).subset ha
  have h2 := (hF.mem a).1 (hF.ids_perm.mem_iff.1 h1)
  have h3 := (hF.horiz a).1 ((horizOf_sublist _ _).subset hb)
  rw [h3.2.1] at h2
  simp at h2

/-- What an event says about its segment. -/
structure EvOk (E : Env K) (y : K) (e : OutputEvent K) : Prop where
  mem : e.segIdx ∈ E.segs
  starts : e.connectedAbove = false → E.startY e.segIdx = y ∧ e.x0 = E.startX e.segIdx
  above : e.connectedAbove = true → E.startY e.segIdx < y
  stops : e.connectedBelow = false → E.endY e.segIdx = y ∧ e.x1 = E.endX e.segIdx
  below : e.connectedBelow = true → y < E.endY e.segIdx

/-- The segments of the entries, and where they start and end. -/
theorem Finished.entry_seg (hF : Finished E S0 M L s) {e : Entry} (he : e ∈ s.line) :
    (e.enter = false → E.startY e.seg < s.y) ∧ (e.exit = false ∨ e.oldSeg ≠ none → s.y < E.endY e.seg) := by
  obtain ⟨f, hf, hfe⟩ := hF.exists_core he
  have hids : (lineIds M).Nodup := hF.nodup
  simp only [Entry.core, Entry.mk.injEq] at hfe
  obtain ⟨q1, q2, q3, -, -, q4⟩ := hfe
  rw [← q1, ← q2, ← q3, ← q4]
  have hid : f.seg ∈ lineIds M := mem_lineIds.2 ⟨f, hf, by simp [Entry.ids]⟩
  obtain ⟨h1, h2, h3, h4⟩ := (hF.mem _).1 hid
  constructor
  · intro hen
    refine lt_of_le_of_ne h3 ?_
    intro heq
    obtain ⟨g, g1, g2, g3⟩ := hF.entered _ hid heq
    have : f = g := ids_unique hids hf g1 (x := f.seg) (by simp [Entry.ids]) (by rw [← g2]; simp [Entry.ids])
    rw [this, g3] at hen
    simp at hen
  · intro hex
    refine lt_of_le_of_ne h4 ?_
    intro heq
    obtain ⟨g, g1, g2⟩ := hF.gone _ hid heq.symm
    rcases g2 with ⟨g2, g3, g4⟩ | g2
    · have : f = g := ids_unique hids hf g1 (x := f.seg) (by simp [Entry.ids]) (by rw [← g2]; simp [Entry.ids])
      rw [this, g3, g4] at hex
      simp at hex
    · have : f = g := ids_unique hids hf g1 (x := f.seg) (by simp [Entry.ids]) (by simp [Entry.ids, g2])
      rw [this] at h2 heq
      -- the segment of an entry is not its own predecessor
      have hn := ids_nodup hids hf
      rw [this] at hn g2
      unfold Entry.ids at hn
      rw [g2] at hn
      simp at hn

theorem Tagged.evOk (hF : Finished E S0 M L s) (h : Tagged E s M c evs T To) : ∀ e ∈ evs, EvOk E s.y e := by
  intro e he
  rcases List.mem_append.1 (h.events.mem_iff.1 he) with h1 | h1
  · obtain ⟨t, ht, hte⟩ := List.mem_flatMap.1 h1
    obtain ⟨hsl, hl, hk⟩ := h.kind hF t ht
    have hok := h.ok t ht
    obtain ⟨e1, e2⟩ := hF.entry_seg hl
    have hms := (hF.mem_line hl).1
    unfold Tag.events at hte
    rcases List.mem_cons.1 hte with rfl | hte
    · have hseg := hok.seg
      have hab := hok.above
      have hbe := hok.below
      unfold Entry.oldSegId at hseg
      rcases hk with ⟨k1, k2, k3⟩ | ⟨k1, k2, k3, k4⟩ | ⟨o, k1, k2, k3, k4, k5, k6, k7, k8⟩ | ⟨k1, k2, k3, k4⟩
      · rw [k3] at hseg hab
        rw [k1] at hab
        rw [k2] at hbe
        simp only [Option.getD_none] at hseg
        refine ⟨by rw [hseg]; exact hms, ?_, ?_, ?_, ?_⟩
        · intro hh; rw [hab] at hh; simp at hh
        · intro _; rw [hseg]; exact e1 k1
        · intro hh; rw [hbe] at hh; simp at hh
        · intro _; rw [hseg]; exact e2 (.inl k2)
      · rw [k3] at hseg hab
        rw [k1] at hab
        rw [k2] at hbe
        simp only [Option.getD_none] at hseg
        refine ⟨by rw [hseg]; exact hms, ?_, ?_, ?_, ?_⟩
        · intro hh; refine ⟨by rw [hseg]; exact k4, hok.start hh⟩
        · intro hh; rw [hab] at hh; simp at hh
        · intro hh; rw [hbe] at hh; simp at hh
        · intro _; rw [hseg]; exact e2 (.inl k2)
      · rw [k3] at hseg hab
        rw [k1] at hab
        rw [k2] at hbe
        simp only [Option.getD_some] at hseg
        have hmo : o ∈ E.segs := by
          have : o ∈ lineIds s.line := mem_lineIds.2 ⟨t.e, hl, by simp [Entry.ids, k3]⟩
          exact ((hF.mem o).1 (hF.ids_perm.mem_iff.1 this)).1
        refine ⟨by rw [hseg]; exact hmo, ?_, ?_, ?_, ?_⟩
        · intro hh; rw [hab] at hh; simp at hh
        · intro _; rw [hseg]; exact k6
        · intro hh; refine ⟨by rw [hseg]; exact k8, hok.stop hh⟩
        · intro hh; rw [hbe] at hh; simp at hh
      · rw [k3] at hseg hab
        rw [k1] at hab
        rw [k2] at hbe
        simp only [Option.getD_none] at hseg
        refine ⟨by rw [hseg]; exact hms, ?_, ?_, ?_, ?_⟩
        · intro hh; rw [hab] at hh; simp at hh
        · intro _; rw [hseg]; exact e1 k1
        · intro hh; refine ⟨by rw [hseg]; exact k4, hok.stop hh⟩
        · intro hh; rw [hbe] at hh; simp at hh
    · rw [Option.mem_toList] at hte
      have ho : t.e.oldSeg ≠ none := by
        intro hn
        rw [hok.noExtra hn] at hte; simp at hte
      obtain ⟨ev, q1, q2, q3, q4, q5, q6, q7⟩ := hok.extra ho
      rw [hte, Option.some.injEq] at q1
      subst q1
      rcases hk with ⟨k1, k2, k3⟩ | ⟨k1, k2, k3, k4⟩ | ⟨o, k1, k2, k3, k4, k5, k6, k7, k8⟩ | ⟨k1, k2, k3, k4⟩
      · exact absurd k3 ho
      · exact absurd k3 ho
      · refine ⟨by rw [q2]; exact hms, ?_, ?_, ?_, ?_⟩
        · intro _; rw [q2]; exact ⟨k4, q6⟩
        · intro hh; rw [q3] at hh; simp at hh
        · intro hh; rw [q4] at hh; simp at hh
        · intro _; rw [q2]; exact e2 (.inr ho)
      · exact absurd k3 ho
  · obtain ⟨x, hx, rfl⟩ := List.mem_map.1 h1
    have hx' := (hF.horiz x).1 ((horizOf_sublist _ _).subset hx)
    have hend : E.endY x = s.y := by
      have := hx'.2.1
      unfold Env.isHorizontal at this
      rw [decide_eq_true_eq] at this
      rw [← this]; exact hx'.2.2
    exact ⟨hx'.1, fun _ => ⟨hx'.2.2, rfl⟩, fun hh => by simp [horizEvent] at hh, fun _ => ⟨hend, rfl⟩, fun hh => by simp [horizEvent] at hh⟩

/-- The events from above, from left to right above the line. -/
def evOld (To : List (Tag K)) : List (OutputEvent K) := To.filterMap Tag.oldEv
/-- The events that go on below, from left to right below the line. -/
def evNew (T : List (Tag K)) : List (OutputEvent K) := T.filterMap Tag.newEv

theorem Tagged.old_segs (hF : Finished E S0 M L s) (h : Tagged E s M c evs T To) : (evOld To).map OutputEvent.segIdx = oldSegs (slice M c) := by
  have h1 : oldSegs (slice M c) = oldSegs (To.map Tag.e) := by
    rw [← oldSegs_core (slice M c), ← h.old, ← oldSegs_core (To.map Tag.e), List.map_map]; rfl
  rw [h1]
  unfold evOld oldSegs
  rw [List.map_filterMap, List.filterMap_map]
  apply List.filterMap_congr
  intro t ht
  have ht' := h.perm.mem_iff.1 ht
  exact oldEv_seg (h.ok t ht') (h.kind hF t ht').2.2

theorem Tagged.new_segs (hF : Finished E S0 M L s) (h : Tagged E s M c evs T To) : (evNew T).map OutputEvent.segIdx = newSegs (slice s.line c) := by
  rw [← h.entries]
  unfold evNew newSegs
  rw [List.map_filterMap, List.filterMap_map]
  apply List.filterMap_congr
  intro t ht
  exact newEv_seg (h.ok t ht) (h.kind hF t ht).2.2

theorem oldEv_mem {t : Tag K} {v : OutputEvent K} (h : v ∈ t.oldEv) : v = t.main ∧ t.main.connectedAbove = true := by
  unfold Tag.oldEv at h
  by_cases hm : t.main.connectedAbove = true
  · rw [if_pos hm, Option.mem_some_iff] at h
    exact ⟨h.symm, hm⟩
  · rw [if_neg hm] at h; simp at h

theorem newEv_mem {t : Tag K} {v : OutputEvent K} (hok : TagOk E t) (h : v ∈ t.newEv) : v.sweepIdx = some t.i ∧ v.x1 = t.x1 := by
  unfold Tag.newEv at h
  by_cases hm : t.main.connectedBelow = true
  · rw [if_pos hm, Option.mem_some_iff] at h
    subst h
    exact ⟨hok.idx hm, hok.x1 hm⟩
  · rw [if_neg hm, Option.mem_def] at h
    have ho : t.e.oldSeg ≠ none := by
      intro hn
      rw [hok.noExtra hn] at h; simp at h
    obtain ⟨ev, q1, q2, q3, q4, q5, q6, q7⟩ := hok.extra ho
    rw [h, Option.some.injEq] at q1
    subst q1
    exact ⟨q5, q7⟩

theorem Tagged.places_lt (h : Tagged E s M c evs T To) : T.Pairwise fun a b => a.i < b.i := by
  have h1 : (List.range' c.start (c.stop - c.start)).Pairwise (· < ·) := List.pairwise_lt_range'
  rw [← h.places, List.pairwise_map] at h1
  exact h1

theorem Tagged.old_lt (h : Tagged E s M c evs T To) : To.Pairwise fun a b => a.e.oldIdx.getD 0 < b.e.oldIdx.getD 0 := by
  rw [List.pairwise_iff_getElem]
  intro i j hi hj hij
  rw [h.oldPlace i _ (List.getElem?_eq_getElem hi), h.oldPlace j _ (List.getElem?_eq_getElem hj)]
  simp only [Option.getD_some]
  omega

variable {W : Type} [AddCommGroup W]

/-- The events of a range satisfy everything the topology asks for. -/
theorem Tagged.rangeSpec (hF : Finished E S0 M L s) (h : Tagged E s M c evs T To) (contrib : OutputEvent K → W)
    (hbal : ∀ x, ((evs.filter fun e => !e.connectedAbove && decide (e.x0 = x)).map contrib).sum =
      ((evs.filter fun e => !e.connectedBelow && decide (e.x1 = x)).map contrib).sum) :
    RangeSpec contrib evs (evOld To) (evNew T) := by
  have hk : ∀ t ∈ T, Kind E s.y t.e := fun t ht => (h.kind hF t ht).2.2
  have hokO : ∀ t ∈ To, TagOk E t := fun t ht => h.ok t (h.perm.mem_iff.1 ht)
  constructor
  case sorted => exact h.sorted
  case nodup => exact (h.seg_perm hF).nodup_iff.2 (hF.range_nodup c)
  case olds =>
    have h1 := h.events.filter fun e => e.connectedAbove
    rw [List.filter_append, filter_above T h.ok] at h1
    have h2 : ((horizOf s c).map (horizEvent E)).filter (fun e => e.connectedAbove) = [] := by
      rw [List.filter_eq_nil_iff]
      intro a ha
      obtain ⟨x, _, rfl⟩ := List.mem_map.1 ha
      simp [horizEvent]
    rw [h2, List.append_nil] at h1
    exact (h.perm.filterMap _).trans h1.symm
  case oldSome =>
    intro e he
    obtain ⟨t, ht, hte⟩ := List.mem_filterMap.1 he
    obtain ⟨rfl, _⟩ := oldEv_mem hte
    rw [(hokO t ht).oldIdx]
    obtain ⟨k, hk'⟩ := List.mem_iff_getElem?.1 ht
    rw [h.oldPlace k t hk']; rfl
  case oldIdx =>
    refine filterMap_pairwise Tag.oldEv (R := fun a b => (TagOk E a ∧ TagOk E b) ∧ a.e.oldIdx.getD 0 < b.e.oldIdx.getD 0) ?_ ?_
    · rintro a b ⟨⟨ha, hb⟩, hab⟩ x hx y hy
      obtain ⟨rfl, _⟩ := oldEv_mem hx
      obtain ⟨rfl, _⟩ := oldEv_mem hy
      rw [ha.oldIdx, hb.oldIdx]; exact hab
    · exact h.old_lt.imp_of_mem fun ha hb hab => ⟨⟨hokO _ ha, hokO _ hb⟩, hab⟩
  case oldX =>
    refine filterMap_pairwise Tag.oldEv (R := fun a b => (TagOk E a ∧ TagOk E b) ∧ a.x0 ≤ b.x0) ?_ ?_
    · rintro a b ⟨⟨ha, hb⟩, hab⟩ x hx y hy
      obtain ⟨rfl, qa⟩ := oldEv_mem hx
      obtain ⟨rfl, qb⟩ := oldEv_mem hy
      rw [ha.x0 qa, hb.x0 qb]; exact hab
    · exact h.x0.imp_of_mem fun ha hb hab => ⟨⟨hokO _ ha, hokO _ hb⟩, hab⟩
  case news =>
    have h1 := h.events.filter fun e => e.connectedBelow
    rw [List.filter_append, filter_below T h.ok hk] at h1
    have h2 : ((horizOf s c).map (horizEvent E)).filter (fun e => e.connectedBelow) = [] := by
      rw [List.filter_eq_nil_iff]
      intro a ha
      obtain ⟨x, _, rfl⟩ := List.mem_map.1 ha
      simp [horizEvent]
    rw [h2, List.append_nil] at h1
    exact h1.symm
  case newSome =>
    intro e he
    obtain ⟨t, ht, hte⟩ := List.mem_filterMap.1 he
    rw [(newEv_mem (h.ok t ht) hte).1]; rfl
  case newIdx =>
    refine filterMap_pairwise Tag.newEv (R := fun a b => (TagOk E a ∧ TagOk E b) ∧ a.i < b.i) ?_ ?_
    · rintro a b ⟨⟨ha, hb⟩, hab⟩ x hx y hy
      rw [(newEv_mem ha hx).1, (newEv_mem hb hy).1]; exact hab
    · exact h.places_lt.imp_of_mem fun ha hb hab => ⟨⟨h.ok _ ha, h.ok _ hb⟩, hab⟩
  case newX =>
    refine filterMap_pairwise Tag.newEv (R := fun a b => (TagOk E a ∧ TagOk E b) ∧ a.x1 ≤ b.x1) ?_ ?_
    · rintro a b ⟨⟨ha, hb⟩, hab⟩ x hx y hy
      rw [(newEv_mem ha hx).2, (newEv_mem hb hy).2]; exact hab
    · exact h.x1.imp_of_mem fun ha hb hab => ⟨⟨h.ok _ ha, h.ok _ hb⟩, hab⟩
  case balance => exact hbal

end Verif.Sweep
