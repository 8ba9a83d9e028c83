import Verif.Sweep.Changed

/-! Changed intervals around horizontal segments and around the ends of segments. -/

namespace Verif.Sweep
open Verif.Curve Verif.Range Verif.Topo
set_option linter.unusedSectionVars false

variable {K : Type} [LinearOrder K]

/-- The binary search finds a boundary of the predicate, and a larger one for a weaker predicate (`TreeVec`, C05 and C60). -/
structure Env.PP (E : Env K) : Prop where
  le : ∀ P l, E.pp P l ≤ l.length
  left : ∀ (P : Nat → Bool) (l : List Nat) (i a : Nat), i + 1 = E.pp P l → l[i]? = some a → P a = true
  right : ∀ (P : Nat → Bool) (l : List Nat) (a : Nat), l[E.pp P l]? = some a → P a = false
  mono : ∀ (P Q : Nat → Bool) (l : List Nat), (∀ a ∈ l, P a = true → Q a = true) → E.pp P l ≤ E.pp Q l

theorem Same.segs {L L' : List Entry} (h : Same L L') : L'.map Entry.seg = L.map Entry.seg := by
  apply List.ext_getElem?
  intro i
  rw [List.getElem?_map, List.getElem?_map]
  exact h.seg

theorem takeWhile_length_map {α β : Type} (f : α → β) (p : β → Bool) (l : List α) :
    (l.takeWhile fun a => p (f a)).length = ((l.map f).takeWhile p).length := by
  rw [List.takeWhile_map, List.length_map]; rfl

theorem horizontalSpan_same {E : Env K} {y : K} {L L' : List Entry} (h : Same L L') (seg : Nat) :
    horizontalSpan E y L' seg = horizontalSpan E y L seg := by
  unfold horizontalSpan
  rw [h.segs]
  simp only
  rw [takeWhile_length_map Entry.seg (fun a => decide (E.lower2 a y ≤ E.endX seg)),
    takeWhile_length_map Entry.seg (fun a => decide (E.lower2 a y ≤ E.endX seg)), List.map_drop, List.map_drop, h.segs]

theorem horizontalSpan_bound {E : Env K} (hpp : E.PP) (y : K) (L : List Entry) (seg : Nat) :
    (horizontalSpan E y L seg).1 ≤ (horizontalSpan E y L seg).2 ∧ (horizontalSpan E y L seg).2 ≤ L.length := by
  unfold horizontalSpan
  have h1 := hpp.le (fun a => decide (E.upper2 a y ≤ E.startX seg)) (L.map Entry.seg)
  rw [List.length_map] at h1
  have h2 := (List.takeWhile_prefix (l := L.drop (E.pp (fun a => decide (E.upper2 a y ≤ E.startX seg)) (L.map Entry.seg)))
    fun e => decide (E.lower2 e.seg y ≤ E.endX seg)).length_le
  rw [List.length_drop] at h2
  dsimp only
  omega

theorem horizontalSpan_mono {E : Env K} (hpp : E.PP) (y : K) (L : List Entry) {a b : Nat} (h : E.startX a ≤ E.startX b) :
    (horizontalSpan E y L a).1 ≤ (horizontalSpan E y L b).1 := by
  unfold horizontalSpan
  refine hpp.mono _ _ _ ?_
  intro s _ hs
  simp only [decide_eq_true_eq] at hs ⊢
  exact hs.trans h

/-- A new interval whose entries are marked. -/
theorem Marking.addMarked {L line line' : List Entry} {snp : List Nat} {chg chg' : List CI} {c : CI} (h : Marking L line snp chg)
    (hs : Same line line') (hc : c.start ≤ c.stop ∧ c.stop ≤ line.length)
    (hin : ∀ (i : Nat) (e e' : Entry), line[i]? = some e → line'[i]? = some e' → e'.inCh = e.inCh)
    (hout : ∀ i : Nat, ¬ (c.start ≤ i ∧ i < c.stop) → line'[i]? = line[i]?)
    (hsure : c.hz = none → ∀ (i : Nat) (e : Entry), c.start ≤ i → i < c.stop → line'[i]? = some e → e.oldIdx ≠ none ∨ i ∈ snp)
    (hcov : ∀ i, Covered chg i → Covered (c :: chg') i) (hsub : ∀ d ∈ chg', d ∈ chg) : Marking L line' snp (c :: chg') := by
  refine ⟨h.same.trans hs, ?_, ?_, ?_, ?_⟩
  · intro i e he hi
    obtain ⟨f, hf⟩ := hs.get he
    rw [hin i f e hf he] at hi
    exact hcov i (h.inCh i f hf hi)
  · intro i e he hi
    by_cases hi' : c.start ≤ i ∧ i < c.stop
    · exact .inr ⟨c, by simp, hi'⟩
    · rw [hout i hi'] at he
      exact (h.old i e he hi).imp id (hcov i)
  · intro d hd hz i e h1 h2 he
    rcases List.mem_cons.1 hd with rfl | hd
    · exact hsure hz i e h1 h2 he
    · obtain ⟨f, hf⟩ := hs.get he
      rcases h.sure d (hsub d hd) hz i f h1 h2 hf with h3 | h3
      · exact .inl ((hs.place i f e hf he).2.2.1 h3)
      · exact .inr h3
  · intro d hd
    rw [hs.len]
    rcases List.mem_cons.1 hd with rfl | hd
    · exact hc
    · exact h.bound d (hsub d hd)

theorem markOld_inCh {line : List Entry} {a b i : Nat} {e e' : Entry} (h : line[i]? = some e) (h' : (markOld line a b)[i]? = some e') :
    e'.inCh = e.inCh := by
  rw [markOld_get, h, Option.map_some, Option.some.injEq] at h'
  subst h'
  split_ifs
  · exact (setOld_core e i).2
  · rfl

theorem markOld_out {line : List Entry} {a b i : Nat} (h : ¬ (a ≤ i ∧ i < b)) : (markOld line a b)[i]? = line[i]? := by
  rw [markOld_get]
  cases line[i]? with
  | none => rfl
  | some e => rw [Option.map_some, if_neg h]

theorem markOld_in {line : List Entry} {a b i : Nat} {e : Entry} (h : a ≤ i ∧ i < b) (he : (markOld line a b)[i]? = some e) : e.oldIdx ≠ none := by
  rw [markOld_get, Option.map_eq_some_iff] at he
  obtain ⟨f, _, h2⟩ := he
  rw [if_pos h] at h2
  subst h2
  exact setOld_some f i

/-- Consecutive ranges of horizontal segments, from the last one to the first. -/
inductive HzChain : Nat → List CI → Prop
  | nil : HzChain 0 []
  | cons (a b s t : Nat) (chg : List CI) : HzChain a chg → a < b → HzChain b (⟨s, t, some (a, b)⟩ :: chg)

theorem HzChain.mem {n : Nat} {chg : List CI} (h : HzChain n chg) : ∀ c ∈ chg, ∃ a b, c.hz = some (a, b) ∧ a < b ∧ b ≤ n := by
  induction h with
  | nil => simp
  | cons a b s t chg h1 h2 ih =>
    intro c hc
    rcases List.mem_cons.1 hc with rfl | hc
    · exact ⟨a, b, rfl, h2, le_refl _⟩
    · obtain ⟨a', b', h3, h4, h5⟩ := ih c hc
      exact ⟨a', b', h3, h4, by omega⟩

/-- The loop over the horizontal segments; `pre` are the ones that have been treated. -/
structure HInv (E : Env K) (y : K) (L : List Entry) (snp : List Nat) (pre : List Nat) (lastEnd : Option K) (line : List Entry)
    (chg : List CI) : Prop where
  marking : Marking L line snp chg
  chain : HzChain pre.length chg
  starts : ∀ c ∈ chg, ∀ s, (∀ p ∈ pre, E.startX p ≤ E.startX s) → c.start ≤ (horizontalSpan E y L s).1
  order : chg.Pairwise fun c d => d.start ≤ c.start
  span : ∀ (k s : Nat), pre[k]? = some s → ∃ c ∈ chg, ∃ a b, c.hz = some (a, b) ∧ a ≤ k ∧ k < b ∧
    c.start ≤ (horizontalSpan E y L s).1 ∧ (horizontalSpan E y L s).2 ≤ c.stop
  last : ∀ m, lastEnd = some m → ∀ p ∈ pre, E.endX p ≤ m
  start : lastEnd = none → pre = [] ∧ chg = []
  gap : ∀ c rest, chg = c :: rest → ∀ a b, c.hz = some (a, b) → ∀ k < a, ∀ s, pre[k]? = some s → ∀ z, (∀ p ∈ pre, E.startX p ≤ z) →
    E.endX s < z
  link : ∀ (k k' s s' : Nat), k < k' → pre[k]? = some s → pre[k']? = some s' → E.startX s' ≤ E.endX s →
    ∃ c ∈ chg, ∃ a b, c.hz = some (a, b) ∧ a ≤ k ∧ k' < b

theorem get_concat {α : Type} {l : List α} {a b : α} {k : Nat} (h : (l ++ [a])[k]? = some b) :
    l[k]? = some b ∨ k = l.length ∧ b = a := by
  by_cases hk : k < l.length
  · rw [List.getElem?_append_left hk] at h; exact .inl h
  · have := (List.getElem?_eq_some_iff.1 h).1
    simp only [List.length_append, List.length_singleton] at this
    have hk' : k = l.length := by omega
    subst hk'
    rw [List.getElem?_concat_length, Option.some.injEq] at h
    exact .inr ⟨rfl, h.symm⟩

/-- A new interval. -/
theorem HInv.fresh {E : Env K} (hpp : E.PP) {y : K} {L : List Entry} {snp pre : List Nat} {lastEnd : Option K} {line : List Entry} {chg : List CI}
    (h : HInv E y L snp pre lastEnd line chg) {seg : Nat} {m : K} (hs : ∀ p ∈ pre, E.startX p ≤ E.startX seg)
    (hnew : ∀ p ∈ pre, E.endX p < E.startX seg) (hm : E.endX seg ≤ m) (hm' : ∀ l, lastEnd = .some l → l ≤ m) :
    HInv E y L snp (pre ++ [seg]) (.some m)
      (markOld line (horizontalSpan E y L seg).1 (horizontalSpan E y L seg).2)
      (⟨(horizontalSpan E y L seg).1, (horizontalSpan E y L seg).2, .some (pre.length, pre.length + 1)⟩ :: chg) := by
  have hb := horizontalSpan_bound hpp y L seg
  constructor
  case marking =>
    refine h.marking.addMarked (Same.markOld _ _ _) ⟨hb.1, by rw [h.marking.same.len]; exact hb.2⟩ ?_ ?_ ?_ ?_ ?_
    · intro i e e' h1 h2; exact markOld_inCh h1 h2
    · intro i hi; exact markOld_out hi
    · intro hz; simp at hz
    · intro i hi; exact hi.mono fun c hc => by simp [hc]
    · exact fun d hd => hd
  case chain =>
    rw [List.length_append, List.length_singleton]
    exact .cons _ _ _ _ _ h.chain (by omega)
  case starts =>
    intro c hc s hs'
    rcases List.mem_cons.1 hc with rfl | hc
    · exact horizontalSpan_mono hpp y L (hs' seg (by simp))
    · exact h.starts c hc s fun p hp => hs' p (by simp [hp])
  case order =>
    rw [List.pairwise_cons]
    exact ⟨fun c hc => h.starts c hc seg hs, h.order⟩
  case span =>
    intro k s hk
    rcases get_concat hk with hk | ⟨rfl, rfl⟩
    · obtain ⟨c, hc, r⟩ := h.span k s hk
      exact ⟨c, by simp [hc], r⟩
    · exact ⟨_, List.mem_cons_self, _, _, rfl, by omega, by omega, le_refl _, le_refl _⟩
  case last =>
    intro m' hm2 p hp
    rw [Option.some.injEq] at hm2
    subst hm2
    rcases List.mem_append.1 hp with hp | hp
    · cases hl : lastEnd with
      | none =>
        rw [(h.start hl).1] at hp
        simp at hp
      | some l => exact (h.last l hl p hp).trans (hm' l hl)
    · rw [List.mem_singleton] at hp
      subst hp
      exact hm
  case start => intro h'; simp at h'
  case gap =>
    intro c rest hcr a b hz k hk s hks z hz'
    rw [List.cons.injEq] at hcr
    rw [← hcr.1] at hz
    simp only [Option.some.injEq, Prod.mk.injEq] at hz
    rcases get_concat hks with hks | ⟨h1, _⟩
    · exact (hnew s (List.mem_of_getElem? hks)).trans_le (hz' seg (by simp))
    · omega
  case link =>
    intro k k' s s' hkk hk hk' hle
    rcases get_concat hk' with hk' | ⟨rfl, rfl⟩
    · rcases get_concat hk with hk | ⟨h1, _⟩
      · obtain ⟨c, hc, r⟩ := h.link k k' s s' hkk hk hk' hle
        exact ⟨c, by simp [hc], r⟩
      · have := (List.getElem?_eq_some_iff.1 hk').1
        omega
    · rcases get_concat hk with hk | ⟨h1, _⟩
      · exact absurd (hnew s (List.mem_of_getElem? hk)) (not_lt.2 hle)
      · omega

/-- The last interval is extended. -/
theorem HInv.extend {E : Env K} (hpp : E.PP) {y : K} {L : List Entry} {snp pre : List Nat} {last : K} {line : List Entry} {chg : List CI}
    {a b : Nat} {hz : Nat × Nat}
    (h : HInv E y L snp pre (.some last) line (⟨a, b, .some hz⟩ :: chg)) {seg : Nat} (hs : ∀ p ∈ pre, E.startX p ≤ E.startX seg) :
    HInv E y L snp (pre ++ [seg]) (.some (max last (E.endX seg)))
      (markOld line (horizontalSpan E y L seg).1 (horizontalSpan E y L seg).2)
      (⟨a, max b (horizontalSpan E y L seg).2, .some (hz.1, pre.length + 1)⟩ :: chg) := by
  have hb := horizontalSpan_bound hpp y L seg
  have hsb := h.starts _ List.mem_cons_self seg hs
  dsimp only at hsb
  have hbd := h.marking.bound _ List.mem_cons_self
  dsimp only at hbd
  obtain ⟨a', b', e1, e2, e3⟩ := h.chain.mem _ List.mem_cons_self
  simp only [Option.some.injEq] at e1
  subst e1
  have hch : HzChain a' chg ∧ b' = pre.length := by
    have := h.chain
    generalize pre.length = n at this
    cases this with
    | cons a0 b0 s t chg h1 h2 => exact ⟨h1, rfl⟩
  obtain ⟨hch, rfl⟩ := hch
  dsimp only
  constructor
  case marking =>
    refine h.marking.addMarked (Same.markOld _ _ _) ?_ ?_ ?_ ?_ ?_ ?_
    · dsimp only
      have := hb.2
      rw [← h.marking.same.len] at this
      omega
    · intro i e e' h1 h2; exact markOld_inCh h1 h2
    · intro i hi
      refine markOld_out ?_
      dsimp only at hi
      omega
    · intro hz; simp at hz
    · rintro i ⟨c, hc, h1, h2⟩
      rcases List.mem_cons.1 hc with rfl | hc
      · refine ⟨_, List.mem_cons_self, h1, ?_⟩
        dsimp only at h2 ⊢
        omega
      · exact ⟨c, by simp [hc], h1, h2⟩
    · exact fun d hd => by simp [hd]
  case chain =>
    rw [List.length_append, List.length_singleton]
    exact .cons _ _ _ _ _ hch (by omega)
  case starts =>
    intro c hc s hs'
    have hs2 : ∀ p ∈ pre, E.startX p ≤ E.startX s := fun p hp => hs' p (by simp [hp])
    rcases List.mem_cons.1 hc with rfl | hc
    · exact h.starts ⟨a, b, .some (a', pre.length)⟩ List.mem_cons_self s hs2
    · exact h.starts c (by simp [hc]) s hs2
  case order =>
    have := h.order
    rw [List.pairwise_cons] at this ⊢
    exact this
  case span =>
    intro k s hk
    rcases get_concat hk with hk | ⟨rfl, rfl⟩
    · obtain ⟨c, hc, a0, b0, r1, r2, r3, r4, r5⟩ := h.span k s hk
      rcases List.mem_cons.1 hc with rfl | hc
      · simp only [Option.some.injEq, Prod.mk.injEq] at r1
        refine ⟨_, List.mem_cons_self, _, _, rfl, by omega, by omega, r4, ?_⟩
        dsimp only at r5 ⊢
        omega
      · exact ⟨c, by simp [hc], a0, b0, r1, r2, r3, r4, r5⟩
    · refine ⟨_, List.mem_cons_self, _, _, rfl, by omega, by omega, hsb, ?_⟩
      dsimp only
      omega
  case last =>
    intro m' hm2 p hp
    rw [Option.some.injEq] at hm2
    subst hm2
    rcases List.mem_append.1 hp with hp | hp
    · exact (h.last last rfl p hp).trans (le_max_left _ _)
    · rw [List.mem_singleton] at hp
      subst hp
      exact le_max_right _ _
  case start => intro h'; simp at h'
  case gap =>
    intro c rest hcr a0 b0 hz k hk s hks z hz'
    rw [List.cons.injEq] at hcr
    rw [← hcr.1] at hz
    simp only [Option.some.injEq, Prod.mk.injEq] at hz
    have hk' : k < pre.length := by omega
    rw [List.getElem?_append_left hk'] at hks
    exact h.gap _ _ rfl a' pre.length rfl k (by omega) s hks z fun p hp => hz' p (by simp [hp])
  case link =>
    intro k k' s s' hkk hk hk' hle
    rcases get_concat hk' with hk' | ⟨rfl, rfl⟩
    · have hlt := (List.getElem?_eq_some_iff.1 hk').1
      rcases get_concat hk with hk | ⟨h1, _⟩
      · obtain ⟨c, hc, a0, b0, r1, r2, r3⟩ := h.link k k' s s' hkk hk hk' hle
        rcases List.mem_cons.1 hc with rfl | hc
        · simp only [Option.some.injEq, Prod.mk.injEq] at r1
          exact ⟨_, List.mem_cons_self, _, _, rfl, by omega, by omega⟩
        · exact ⟨c, by simp [hc], a0, b0, r1, r2, r3⟩
      · omega
    · rcases get_concat hk with hk | ⟨h1, _⟩
      · refine ⟨_, List.mem_cons_self, _, _, rfl, ?_, by omega⟩
        by_contra hlt
        exact absurd (h.gap _ _ rfl a' pre.length rfl k (by omega) s hk _ hs) (not_lt.2 hle)
      · omega

theorem horizontalLoop_spec {E : Env K} (hpp : E.PP) {y : K} {L : List Entry} {snp : List Nat} (rest : List Nat) :
    ∀ {pre : List Nat} {lastEnd : Option K} {line : List Entry} {chg : List CI} {r : List Entry × List CI},
      horizontalLoop E y rest pre.length lastEnd line chg = some r → HInv E y L snp pre lastEnd line chg →
      (pre ++ rest).Pairwise (fun a b => E.startX a ≤ E.startX b) →
      ∃ m, HInv E y L snp (pre ++ rest) m r.1 r.2 := by
  induction rest with
  | nil =>
    intro pre lastEnd line chg r h hi _
    simp only [horizontalLoop, Option.some.injEq] at h
    subst h
    exact ⟨lastEnd, by simpa using hi⟩
  | cons seg rest ih =>
    intro pre lastEnd line chg r h hi hp
    have hs : ∀ p ∈ pre, E.startX p ≤ E.startX seg := fun p hp' => (List.pairwise_append.1 hp).2.2 p hp' seg (by simp)
    have hlen : pre.length + 1 = (pre ++ [seg]).length := by simp
    have happ : pre ++ seg :: rest = pre ++ [seg] ++ rest := by simp
    simp only [horizontalLoop, horizontalSpan_same hi.marking.same] at h
    rw [happ] at hp ⊢
    cases lastEnd with
    | none =>
      rw [hlen] at h
      refine ih h ?_ hp
      rw [← hlen]
      refine hi.fresh hpp hs ?_ (le_refl _) (by simp)
      rw [(hi.start rfl).1]; simp
    | some last =>
      dsimp only at h
      by_cases hle : E.startX seg ≤ last
      · rw [if_pos hle] at h
        split at h
        · rename_i a b hz chg'
          rw [hlen] at h
          refine ih h ?_ hp
          rw [← hlen]
          exact hi.extend hpp hs
        · simp at h
      · rw [if_neg hle, hlen] at h
        refine ih h ?_ hp
        rw [← hlen]
        refine hi.fresh hpp hs ?_ (le_max_right _ _) ?_
        · intro p hp'
          exact (hi.last last rfl p hp').trans_lt (not_le.1 hle)
        · intro l hl
          rw [Option.some.injEq] at hl
          subst hl
          exact le_max_left _ _

theorem HInv.init (E : Env K) (y : K) {L : List Entry} {snp : List Nat} (h : Marking L L snp []) : HInv E y L snp [] none L [] := by
  constructor
  case marking => exact h
  case chain => exact .nil
  case starts => simp
  case order => simp
  case span => simp
  case last => simp
  case start => simp
  case gap => simp
  case link => simp

end Verif.Sweep
