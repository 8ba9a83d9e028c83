import Verif.Sweep.Intersect

/-! The loops that compute the changed intervals only mark entries. -/

namespace Verif.Sweep
open Verif.Curve Verif.Range Verif.Topo
set_option linter.unusedSectionVars false

variable {K : Type} [LinearOrder K]

/-- An entry without the marks made by the computation of changed intervals. -/
def Entry.core (e : Entry) : Entry := { e with oldIdx := none, inCh := false }

/-- `L'` is `L` with more marks. -/
structure Same (L L' : List Entry) : Prop where
  len : L'.length = L.length
  place : ∀ (i : Nat) (e e' : Entry), L[i]? = some e → L'[i]? = some e' →
    e'.oldIdx.getD i = e.oldIdx.getD i ∧ e'.core = e.core ∧ (e.oldIdx ≠ none → e'.oldIdx ≠ none) ∧ (e.inCh = true → e'.inCh = true)

theorem Same.refl (L : List Entry) : Same L L := by
  refine ⟨rfl, ?_⟩
  intro i e e' h1 h2
  rw [h1, Option.some.injEq] at h2
  subst h2
  exact ⟨rfl, rfl, id, id⟩

theorem Same.get {L L' : List Entry} (h : Same L L') {i : Nat} {e' : Entry} (he : L'[i]? = some e') : ∃ e, L[i]? = some e := by
  have := (List.getElem?_eq_some_iff.1 he).1
  rw [h.len] at this
  exact ⟨_, List.getElem?_eq_getElem this⟩

theorem Same.get' {L L' : List Entry} (h : Same L L') {i : Nat} {e : Entry} (he : L[i]? = some e) : ∃ e, L'[i]? = some e := by
  have := (List.getElem?_eq_some_iff.1 he).1
  rw [← h.len] at this
  exact ⟨_, List.getElem?_eq_getElem this⟩

theorem Same.trans {A B C : List Entry} (h1 : Same A B) (h2 : Same B C) : Same A C := by
  refine ⟨h2.len.trans h1.len, ?_⟩
  intro i e e' ha hc
  obtain ⟨f, hb⟩ := h1.get' ha
  have a := h1.place i e f ha hb
  have b := h2.place i f e' hb hc
  exact ⟨b.1.trans a.1, b.2.1.trans a.2.1, fun h => b.2.2.1 (a.2.2.1 h), fun h => b.2.2.2 (a.2.2.2 h)⟩

theorem Same.seg {L L' : List Entry} (h : Same L L') {i : Nat} : (L'[i]?).map Entry.seg = (L[i]?).map Entry.seg := by
  cases h1 : L[i]? with
  | none =>
    have : L'[i]? = none := by rw [List.getElem?_eq_none_iff] at h1 ⊢; rw [h.len]; exact h1
    rw [this]
  | some e =>
    obtain ⟨f, hf⟩ := h.get' h1
    rw [hf]
    have := congrArg Entry.seg (h.place i e f h1 hf).2.1
    simpa [Entry.core] using this

theorem setOld_core (e : Entry) (i : Nat) : (e.setOld i).core = e.core ∧ (e.setOld i).inCh = e.inCh := by
  unfold Entry.setOld
  split_ifs <;> simp [Entry.core]

theorem setOld_some (e : Entry) (i : Nat) : (e.setOld i).oldIdx ≠ none := by
  rw [(setOld_spec e i).1]; simp

theorem Same.markOld (L : List Entry) (a b : Nat) : Same L (markOld L a b) := by
  refine ⟨markOld_length _ _ _, ?_⟩
  intro i e e' h1 h2
  rw [markOld_get, h1, Option.map_some, Option.some.injEq] at h2
  subst h2
  split_ifs
  · refine ⟨?_, (setOld_core e i).1, fun _ => setOld_some e i, fun h => by rw [(setOld_core e i).2]; exact h⟩
    rw [(setOld_spec e i).1]; rfl
  · exact ⟨rfl, rfl, id, id⟩

theorem markCh_length (line : List Entry) (a b : Nat) : (markCh line a b).length = line.length := by simp [markCh]

theorem markCh_get (line : List Entry) (a b i : Nat) :
    (markCh line a b)[i]? = line[i]?.map fun e => if a ≤ i ∧ i < b then { e.setOld i with inCh := true } else e := by
  rw [markCh, List.getElem?_mapIdx]

theorem Same.markCh (L : List Entry) (a b : Nat) : Same L (markCh L a b) := by
  refine ⟨markCh_length _ _ _, ?_⟩
  intro i e e' h1 h2
  rw [markCh_get, h1, Option.map_some, Option.some.injEq] at h2
  subst h2
  split_ifs
  · refine ⟨?_, ?_, fun _ => setOld_some e i, fun _ => rfl⟩
    · show (e.setOld i).oldIdx.getD i = _
      rw [(setOld_spec e i).1]; rfl
    · rw [← (setOld_core e i).1]; rfl
  · exact ⟨rfl, rfl, id, id⟩

theorem markCh_join (line : List Entry) (a b c : Nat) (hab : a ≤ b) (hbc : b ≤ c) :
    markCh (markCh line a b) b c = markCh line a c ∧ markCh (markCh line b c) a b = markCh line a c := by
  constructor <;>
  · apply List.ext_getElem?
    intro i
    rw [markCh_get, markCh_get, markCh_get, Option.map_map]
    congr 1
    funext e
    simp only [Function.comp_apply]
    split_ifs <;> first | rfl | omega

theorem markCh_nil (line : List Entry) (a : Nat) : markCh line a a = line := by
  apply List.ext_getElem?
  intro i
  rw [markCh_get]
  cases line[i]? with
  | none => rfl
  | some e => rw [Option.map_some, if_neg (by omega)]

theorem growRight_spec {E : Env K} {y : K} (is : List Nat) : ∀ {line : List Entry} {stop : Nat} {r : List Entry × Nat},
    growRight E y is line stop = some r → (∀ i ∈ is, stop ≤ i ∧ i < line.length) → is.Pairwise (· < ·) → stop ≤ line.length →
    stop ≤ r.2 ∧ r.2 ≤ line.length ∧ r.1 = markCh line stop r.2 := by
  induction is with
  | nil =>
    intro line stop r h _ _ hl
    simp only [growRight, Option.some.injEq] at h
    subst h
    exact ⟨le_refl _, hl, (markCh_nil _ _).symm⟩
  | cons i is ih =>
    intro line stop r h hb hp hl
    have hi := hb i (by simp)
    rw [List.pairwise_cons] at hp
    simp only [growRight] at h
    split at h
    · split at h
      · simp at h
      · simp only [Option.some.injEq] at h
        subst h
        exact ⟨le_refl _, hl, (markCh_nil _ _).symm⟩
      · split at h
        · simp at h
        · exact ih h (fun j hj => hb j (by simp [hj])) hp.2 hl
        · have := ih h (by
            intro j hj
            have := hp.1 j hj
            have := hb j (by simp [hj])
            rw [markCh_length]; omega) hp.2 (by rw [markCh_length]; omega)
          rw [markCh_length] at this
          refine ⟨by omega, this.2.1, ?_⟩
          rw [this.2.2, (markCh_join line stop (i + 1) r.2 (by omega) this.1).1]
    · simp at h

theorem growLeft_spec {E : Env K} {y : K} (is : List Nat) : ∀ {line : List Entry} {start : Nat} {r : List Entry × Nat},
    growLeft E y is line start = some r → (∀ i ∈ is, i < start) → is.Pairwise (· > ·) →
    r.2 ≤ start ∧ r.1 = markCh line r.2 start := by
  induction is with
  | nil =>
    intro line start r h _ _
    simp only [growLeft, Option.some.injEq] at h
    subst h
    exact ⟨le_refl _, (markCh_nil _ _).symm⟩
  | cons i is ih =>
    intro line start r h hb hp
    have hi := hb i (by simp)
    rw [List.pairwise_cons] at hp
    simp only [growLeft] at h
    split at h
    · split at h
      · simp at h
      · simp only [Option.some.injEq] at h
        subst h
        exact ⟨le_refl _, (markCh_nil _ _).symm⟩
      · split at h
        · simp at h
        · exact ih h (fun j hj => hb j (by simp [hj])) hp.2
        · have := ih h (fun j hj => hp.1 j hj) hp.2
          refine ⟨by omega, ?_⟩
          rw [this.2, (markCh_join line r.2 i start this.1 (by omega)).2]
    · simp at h

/-- The place is in one of the intervals. -/
def Covered (chg : List CI) (i : Nat) : Prop := ∃ c ∈ chg, c.start ≤ i ∧ i < c.stop

/-- Marked entries are in an interval. -/
def InChOk (line : List Entry) (chg : List CI) : Prop := ∀ (i : Nat) (e : Entry), line[i]? = some e → e.inCh = true → Covered chg i

/-- Entries with an old place are in an interval or will be. -/
def OldOk (line : List Entry) (snp : List Nat) (chg : List CI) : Prop :=
  ∀ (i : Nat) (e : Entry), line[i]? = some e → e.oldIdx ≠ none → i ∈ snp ∨ Covered chg i

/-- The entries of an interval without horizontal segments have an old place or will have one. -/
def SureOk (line : List Entry) (snp : List Nat) (chg : List CI) : Prop :=
  ∀ c ∈ chg, c.hz = none → ∀ (i : Nat) (e : Entry), c.start ≤ i → i < c.stop → line[i]? = some e → e.oldIdx ≠ none ∨ i ∈ snp

/-- What holds in all the loops. -/
structure Marking (L line : List Entry) (snp : List Nat) (chg : List CI) : Prop where
  same : Same L line
  inCh : InChOk line chg
  old : OldOk line snp chg
  sure : SureOk line snp chg
  bound : ∀ c ∈ chg, c.start ≤ c.stop ∧ c.stop ≤ line.length

theorem Covered.mono {chg chg' : List CI} (h : ∀ c ∈ chg, c ∈ chg') {i : Nat} (hc : Covered chg i) : Covered chg' i := by
  obtain ⟨c, h1, h2⟩ := hc
  exact ⟨c, h c h1, h2⟩

/-- One interval is added and its entries are marked. -/
theorem Marking.markCh {L line : List Entry} {snp : List Nat} {chg : List CI} (h : Marking L line snp chg) {a b : Nat} (hab : a ≤ b)
    (hb : b ≤ line.length) : Marking L (markCh line a b) snp (⟨a, b, none⟩ :: chg) := by
  refine ⟨h.same.trans (Same.markCh _ _ _), ?_, ?_, ?_, ?_⟩
  · intro i e he hi
    rw [markCh_get, Option.map_eq_some_iff] at he
    obtain ⟨f, h1, h2⟩ := he
    by_cases hc : a ≤ i ∧ i < b
    · exact ⟨_, List.mem_cons_self, hc⟩
    · rw [if_neg hc] at h2
      subst h2
      exact (h.inCh i f h1 hi).mono fun c hc => by simp [hc]
  · intro i e he hi
    rw [markCh_get, Option.map_eq_some_iff] at he
    obtain ⟨f, h1, h2⟩ := he
    by_cases hc : a ≤ i ∧ i < b
    · exact .inr ⟨_, List.mem_cons_self, hc⟩
    · rw [if_neg hc] at h2
      subst h2
      exact (h.old i f h1 hi).imp id fun h => h.mono fun c hc => by simp [hc]
  · intro c hc hz i e h1 h2 he
    rw [markCh_get, Option.map_eq_some_iff] at he
    obtain ⟨f, h3, h4⟩ := he
    by_cases hi : a ≤ i ∧ i < b
    · rw [if_pos hi] at h4
      subst h4
      exact .inl (setOld_some f i)
    · rw [if_neg hi] at h4
      subst h4
      rcases List.mem_cons.1 hc with rfl | hc
      · exact absurd ⟨h1, h2⟩ hi
      · exact h.sure c hc hz i f h1 h2 h3
  · intro c hc
    rw [markCh_length]
    rcases List.mem_cons.1 hc with rfl | hc
    · exact ⟨hab, hb⟩
    · exact h.bound c hc

/-- Marking old places inside the intervals. -/
theorem Marking.markOld {L line : List Entry} {snp : List Nat} {chg : List CI} (h : Marking L line snp chg) {a b : Nat}
    (hc : ∀ i, a ≤ i → i < b → i < line.length → Covered chg i) : Marking L (markOld line a b) snp chg := by
  refine ⟨h.same.trans (Same.markOld _ _ _), ?_, ?_, ?_, ?_⟩
  · intro i e he hi
    rw [markOld_get, Option.map_eq_some_iff] at he
    obtain ⟨f, h1, h2⟩ := he
    refine h.inCh i f h1 ?_
    subst h2
    split_ifs at hi
    · rw [(setOld_core f i).2] at hi; exact hi
    · exact hi
  · intro i e he hi
    rw [markOld_get, Option.map_eq_some_iff] at he
    obtain ⟨f, h1, h2⟩ := he
    by_cases hab : a ≤ i ∧ i < b
    · exact .inr (hc i hab.1 hab.2 (List.getElem?_eq_some_iff.1 h1).1)
    · rw [if_neg hab] at h2
      subst h2
      exact h.old i f h1 hi
  · intro c hc hz i e h1 h2 he
    rw [markOld_get, Option.map_eq_some_iff] at he
    obtain ⟨f, h3, h4⟩ := he
    rcases h.sure c hc hz i f h1 h2 h3 with h5 | h5
    · left
      subst h4
      split_ifs
      · exact setOld_some f i
      · exact h5
    · exact .inr h5
  · intro c hc
    rw [markOld_length]
    exact h.bound c hc

theorem Marking.add {L line : List Entry} {snp : List Nat} {chg : List CI} (h : Marking L line snp chg) {c : CI}
    (hc : c.start ≤ c.stop ∧ c.stop ≤ line.length)
    (hz : c.hz = none → ∀ (i : Nat) (e : Entry), c.start ≤ i → i < c.stop → line[i]? = some e → e.oldIdx ≠ none ∨ i ∈ snp) :
    Marking L line snp (c :: chg) := by
  refine ⟨h.same, ?_, ?_, ?_, ?_⟩
  · intro i e he hi
    exact (h.inCh i e he hi).mono fun c hc => by simp [hc]
  · intro i e he hi
    exact (h.old i e he hi).imp id fun h => h.mono fun c hc => by simp [hc]
  · intro d hd hz' i e h1 h2 he
    rcases List.mem_cons.1 hd with rfl | hd
    · exact hz hz' i e h1 h2 he
    · exact h.sure d hd hz' i e h1 h2 he
  · intro d hd
    rcases List.mem_cons.1 hd with rfl | hd
    · exact hc
    · exact h.bound d hd

theorem positionLoop_spec {E : Env K} {y : K} {L : List Entry} {snp : List Nat} (js : List Nat) :
    ∀ {line : List Entry} {chg : List CI} {r : List Entry × List CI}, positionLoop E y js line chg = some r →
      Marking L line snp chg → Marking L r.1 snp r.2 ∧ (∀ c ∈ chg, c ∈ r.2) ∧ (∀ c ∈ r.2, c ∈ chg ∨ c.hz = none) ∧ Same line r.1 ∧
        (r.2.filter fun c => c.hz.isSome) = (chg.filter fun c => c.hz.isSome) ∧
        ∀ i ∈ js, ∃ e, r.1[i]? = some e ∧ e.inCh = true ∧ (e.oldIdx ≠ none ∨ ∃ e0, line[i]? = some e0 ∧ e0.inCh = true) := by
  induction js with
  | nil =>
    intro line chg r h hm
    simp only [positionLoop, Option.some.injEq] at h
    subst h
    exact ⟨hm, fun _ h => h, fun _ h => .inl h, Same.refl _, rfl, by simp⟩
  | cons idx js ih =>
    intro line chg r h hm
    simp only [positionLoop] at h
    split at h
    · simp at h
    rename_i e he
    by_cases hin : e.inCh = true
    · rw [if_pos hin] at h
      obtain ⟨h1, h2, h3, h4, h5, h6⟩ := ih h hm
      refine ⟨h1, h2, h3, h4, h5, ?_⟩
      intro i hi
      rcases List.mem_cons.1 hi with rfl | hi
      · obtain ⟨f, hf⟩ := h4.get' he
        exact ⟨f, hf, (h4.place _ e f he hf).2.2.2 hin, .inr ⟨e, he, hin⟩⟩
      · exact h6 i hi
    · rw [if_neg hin] at h
      have hlt := (List.getElem?_eq_some_iff.1 he).1
      split at h
      · simp at h
      rename_i line1 stop hg
      obtain ⟨g1, g2, g3⟩ := growRight_spec _ hg (by
        intro i hi
        rw [List.mem_range'_1] at hi
        rw [markCh_length]
        omega) (range'_lt _ _) (by rw [markCh_length]; omega)
      dsimp only at g1 g2 g3
      rw [markCh_length] at g2
      rw [(markCh_join line idx (idx + 1) stop (by omega) g1).1] at g3
      split at h
      · simp at h
      rename_i line2 start hg'
      obtain ⟨k1, k2⟩ := growLeft_spec _ hg' (by
        intro i hi
        simpa using hi) (by
        rw [List.pairwise_reverse]
        exact List.pairwise_lt_range)
      dsimp only at k1 k2
      rw [g3, (markCh_join line start idx stop k1 (by omega)).2] at k2
      subst k2
      obtain ⟨h1, h2, h3, h4, h5, h6⟩ := ih h (hm.markCh (by omega) g2)
      refine ⟨h1, fun c hc => h2 c (by simp [hc]), ?_, (Same.markCh _ _ _).trans h4, by rw [h5]; simp, ?_⟩
      · intro c hc
        rcases h3 c hc with h | h
        · rcases List.mem_cons.1 h with rfl | h
          · exact .inr rfl
          · exact .inl h
        · exact .inr h
      · intro i hi
        have key : ∀ f, (markCh line start stop)[i]? = some f → f.inCh = true → ¬ (∃ e0, line[i]? = some e0 ∧ e0.inCh = true) → f.oldIdx ≠ none := by
          intro f hf hfi hno
          rw [markCh_get, Option.map_eq_some_iff] at hf
          obtain ⟨e0, h7, h8⟩ := hf
          by_cases hc : start ≤ i ∧ i < stop
          · rw [if_pos hc] at h8
            subst h8
            exact setOld_some e0 i
          · rw [if_neg hc] at h8
            subst h8
            exact absurd ⟨e0, h7, hfi⟩ hno
        rcases List.mem_cons.1 hi with rfl | hi
        · have hf : (markCh line start stop)[i]? = some { e.setOld i with inCh := true } := by
            rw [markCh_get, he, Option.map_some, if_pos ⟨k1, by omega⟩]
          obtain ⟨f, hf'⟩ := h4.get' hf
          have hp := h4.place _ _ f hf hf'
          exact ⟨f, hf', hp.2.2.2 rfl, .inl (hp.2.2.1 (setOld_some e i))⟩
        · obtain ⟨f, h7, h8, h9⟩ := h6 i hi
          refine ⟨f, h7, h8, ?_⟩
          by_cases hno : ∃ e0, line[i]? = some e0 ∧ e0.inCh = true
          · exact .inr hno
          · rcases h9 with h9 | ⟨e0, h10, h11⟩
            · exact .inl h9
            · left
              exact (h4.place i e0 f h10 h7).2.2.1 (key e0 h10 h11 hno)

end Verif.Sweep
