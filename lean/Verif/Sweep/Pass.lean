import Verif.Sweep.Line

/-! Positions and events of one range (`next_range`). -/

namespace Verif.Sweep
open Verif.Curve Verif.Range Verif.Topo
set_option linter.unusedSectionVars false

variable {K : Type} [LinearOrder K]

/-! ## Feasible positions -/

theorem runMax_length (f : Entry → K) (es : List Entry) : ∀ m, (runMax f m es).length = es.length := by
  induction es with
  | nil => intro m; rfl
  | cons e es ih => intro m; simp only [runMax, List.length_cons, ih]

theorem sufMin_length (f : Entry → K) (top : K) (es : List Entry) : (sufMin f top es).length = es.length := by
  induction es with
  | nil => rfl
  | cons e es ih => simp only [sufMin, List.length_cons, ih]

theorem sufMin_sorted (f : Entry → K) (top : K) (es : List Entry) : (sufMin f top es).Pairwise (· ≤ ·) := by
  induction es with
  | nil => exact .nil
  | cons e es ih =>
    rw [sufMin, List.pairwise_cons]
    refine ⟨?_, ih⟩
    intro b hb
    cases h : sufMin f top es with
    | nil => rw [h] at hb; simp at hb
    | cons c cs =>
      rw [h] at hb ih
      rw [List.headD_cons]
      refine (min_le_left _ _).trans ?_
      rcases List.mem_cons.1 hb with rfl | hb
      · exact le_refl _
      · exact (List.pairwise_cons.1 ih).1 b hb

theorem feasible_map (E : Env K) (y : K) (segOf : Entry → Nat) (es : List Entry) : (feasible E y segOf es).map (fun p => p.1) = es := by
  unfold feasible
  refine List.map_fst_zip ?_
  rw [List.length_zip, List.length_map, List.length_map, runMax_length, sufMin_length]
  simp

theorem feasible_sorted (E : Env K) (y : K) (segOf : Entry → Nat) (es : List Entry) :
    (feasible E y segOf es).Pairwise fun p q => p.2.2 ≤ q.2.2 := by
  unfold feasible
  dsimp only
  generalize es.foldl (fun m e => max m (E.atY (segOf e) y)) E.negInf = mx
  have h : ((sufMin (fun e => E.upper (segOf e) y) E.posInf es).map fun b => min b mx).Pairwise (· ≤ ·) := by
    rw [List.pairwise_map]
    exact (sufMin_sorted _ _ _).imp fun hab => min_le_min_right _ hab
  generalize ((sufMin (fun e => E.upper (segOf e) y) E.posInf es).map fun b => min b mx) = hi at h
  generalize ((runMax (fun e => E.lower (segOf e) y) E.negInf es).map _) = lo
  have h2 : ((es.zip (lo.zip hi)).map fun p => p.2.2).Sublist hi := by
    induction es generalizing lo hi with
    | nil => simp
    | cons e es ih =>
      cases lo with
      | nil => simp
      | cons l lo =>
        cases hi with
        | nil => simp
        | cons b hi =>
          rw [List.zip_cons_cons, List.zip_cons_cons, List.map_cons]
          exact (ih _ (List.pairwise_cons.1 h).2 _).cons_cons _
  have h3 := h.sublist h2
  rwa [List.pairwise_map] at h3

/-- The segments `l` are in order at the height `y`, up to their error intervals; infinity is beyond everything. -/
structure EpsOrd (E : Env K) (y : K) (l : List Nat) : Prop where
  ord : ∀ (i j a b : Nat), i ≤ j → l[i]? = some a → l[j]? = some b → E.lower a y ≤ E.upper b y
  mid : ∀ a ∈ l, E.lower a y ≤ E.atY a y ∧ E.atY a y ≤ E.upper a y
  inf : ∀ a ∈ l, E.negInf ≤ E.atY a y ∧ E.atY a y ≤ E.posInf

theorem runMax_ge (f : Entry → K) (es : List Entry) : ∀ (m v : K), v ∈ runMax f m es → m ≤ v := by
  induction es with
  | nil => intro m v h; simp [runMax] at h
  | cons e es ih =>
    intro m v h
    simp only [runMax] at h
    rcases List.mem_cons.1 h with rfl | h
    · exact le_max_left _ _
    · exact (le_max_left _ _).trans (ih _ _ h)

theorem sufMin_get (f : Entry → K) (top : K) (es : List Entry) : ∀ (k : Nat) (v : K), (sufMin f top es)[k]? = some v →
    (∀ e, es[k]? = some e → v ≤ f e) ∧ (v = top ∨ ∃ (j : Nat) (e : Entry), k ≤ j ∧ es[j]? = some e ∧ v = f e) := by
  induction es with
  | nil => intro k v h; simp [sufMin] at h
  | cons e es ih =>
    intro k v h
    simp only [sufMin] at h
    cases k with
    | zero =>
      simp only [List.getElem?_cons_zero, Option.some.injEq] at h
      constructor
      · intro e' he'
        simp only [List.getElem?_cons_zero, Option.some.injEq] at he'
        subst he' h; exact min_le_right _ _
      · rcases min_choice ((sufMin f top es).headD top) (f e) with h1 | h1
        · rw [h1] at h
          cases hh : sufMin f top es with
          | nil => rw [hh] at h; exact .inl h.symm
          | cons w ws =>
            rw [hh] at h
            change w = v at h
            obtain ⟨_, q⟩ := ih 0 w (by rw [hh]; rfl)
            rcases q with q | ⟨j, e', q1, q2, q3⟩
            · exact .inl (h.symm.trans q)
            · exact .inr ⟨j + 1, e', by omega, by simpa using q2, h.symm.trans q3⟩
        · exact .inr ⟨0, e, le_refl _, rfl, by rw [← h, h1]⟩
    | succ k =>
      simp only [List.getElem?_cons_succ] at h
      obtain ⟨h1, h2⟩ := ih _ _ h
      refine ⟨fun e' he' => h1 e' (by simpa using he'), ?_⟩
      rcases h2 with h2 | ⟨j, e', q1, q2, q3⟩
      · exact .inl h2
      · exact .inr ⟨j + 1, e', by omega, by simpa using q2, q3⟩

theorem foldl_max_ge {α : Type} (g : α → K) (es : List α) : ∀ m : K, m ≤ es.foldl (fun m e => max m (g e)) m ∧
    ∀ e ∈ es, g e ≤ es.foldl (fun m e => max m (g e)) m := by
  induction es with
  | nil => intro m; simp
  | cons e es ih =>
    intro m
    rw [List.foldl_cons]
    obtain ⟨h1, h2⟩ := ih (max m (g e))
    refine ⟨(le_max_left _ _).trans h1, ?_⟩
    intro e' he'
    rcases List.mem_cons.1 he' with rfl | he'
    · exact (le_max_right _ _).trans h1
    · exact h2 e' he'

theorem foldl_min_le {α : Type} (g : α → K) (es : List α) : ∀ m : K, es.foldl (fun m e => min m (g e)) m ≤ m ∧
    ∀ e ∈ es, es.foldl (fun m e => min m (g e)) m ≤ g e := by
  induction es with
  | nil => intro m; simp
  | cons e es ih =>
    intro m
    rw [List.foldl_cons]
    obtain ⟨h1, h2⟩ := ih (min m (g e))
    refine ⟨h1.trans (min_le_left _ _), ?_⟩
    intro e' he'
    rcases List.mem_cons.1 he' with rfl | he'
    · exact h1.trans (min_le_right _ _)
    · exact h2 e' he'

theorem runMax_get (f : Entry → K) (es : List Entry) : ∀ (m : K) (k : Nat) (v : K), (runMax f m es)[k]? = some v →
    (∀ (j : Nat) (e : Entry), j ≤ k → es[j]? = some e → f e ≤ v) ∧ (v = m ∨ ∃ (j : Nat) (e : Entry), j ≤ k ∧ es[j]? = some e ∧ v = f e) := by
  induction es with
  | nil => intro m k v h; simp [runMax] at h
  | cons e es ih =>
    intro m k v h
    simp only [runMax] at h
    have hm : max m (f e) = m ∨ max m (f e) = f e := max_choice _ _
    cases k with
    | zero =>
      simp only [List.getElem?_cons_zero, Option.some.injEq] at h
      subst h
      constructor
      · intro j e' hj he'
        have : j = 0 := by omega
        subst this
        simp only [List.getElem?_cons_zero, Option.some.injEq] at he'
        subst he'; exact le_max_right _ _
      · rcases hm with h | h
        · exact .inl h
        · exact .inr ⟨0, e, le_refl _, rfl, h⟩
    | succ k =>
      simp only [List.getElem?_cons_succ] at h
      obtain ⟨h1, h2⟩ := ih _ _ _ h
      have hle : max m (f e) ≤ v := runMax_ge f es _ _ (List.mem_of_getElem? h)
      constructor
      · intro j e' hj he'
        cases j with
        | zero =>
          simp only [List.getElem?_cons_zero, Option.some.injEq] at he'
          subst he'; exact (le_max_right _ _).trans hle
        | succ j =>
          simp only [List.getElem?_cons_succ] at he'
          exact h1 j e' (by omega) he'
      · rcases h2 with h2 | ⟨j, e', q1, q2, q3⟩
        · rcases hm with h | h
          · exact .inl (h2.trans h)
          · exact .inr ⟨0, e, by omega, rfl, h2.trans h⟩
        · exact .inr ⟨j + 1, e', by omega, by simpa using q2, q3⟩

/-- The interval of a segment lies within its error interval, and is not empty if the segments are in order. -/
theorem feasible_in (E : Env K) (y : K) (segOf : Entry → Nat) (es : List Entry) {p : Entry × K × K} (hp : p ∈ feasible E y segOf es) :
    E.lower (segOf p.1) y ≤ p.2.1 ∧ p.2.2 ≤ E.upper (segOf p.1) y ∧ (EpsOrd E y (es.map segOf) → p.2.1 ≤ p.2.2) := by
  obtain ⟨k, hk⟩ := List.mem_iff_getElem?.1 hp
  obtain ⟨e, lo, hi⟩ := p
  unfold feasible at hk
  dsimp only at hk
  rw [List.getElem?_zip_eq_some, List.getElem?_zip_eq_some] at hk
  obtain ⟨he, hlo, hhi⟩ := hk
  dsimp only at he hlo hhi
  rw [List.getElem?_map, Option.map_eq_some_iff] at hlo hhi
  obtain ⟨a, ha, rfl⟩ := hlo
  obtain ⟨b, hb, rfl⟩ := hhi
  obtain ⟨a1, a2⟩ := runMax_get _ _ _ _ _ ha
  obtain ⟨b1, b2⟩ := sufMin_get _ _ _ _ _ hb
  refine ⟨(a1 k e (le_refl _) he).trans (le_max_left _ _), (min_le_left _ _).trans (b1 e he), ?_⟩
  intro ho
  have hget : ∀ (j : Nat) (f : Entry), es[j]? = some f → (es.map segOf)[j]? = some (segOf f) := by
    intro j f hf; rw [List.getElem?_map, hf]; rfl
  have hmem : ∀ f ∈ es, segOf f ∈ es.map segOf := fun f hf => List.mem_map_of_mem hf
  have hmx := foldl_max_ge (fun e => E.atY (segOf e) y) es E.negInf
  have hmn := foldl_min_le (fun e => E.atY (segOf e) y) es E.posInf
  have hem := List.mem_of_getElem? he
  dsimp only
  refine max_le (le_min ?_ ?_) (le_min ?_ ?_)
  · rcases a2 with rfl | ⟨j, f, q1, q2, rfl⟩
    · rcases b2 with rfl | ⟨j', f', r1, r2, rfl⟩
      · exact (ho.inf _ (hmem e hem)).1.trans (ho.inf _ (hmem e hem)).2
      · have := List.mem_of_getElem? r2
        exact (ho.inf _ (hmem f' this)).1.trans (ho.mid _ (hmem f' this)).2
    · have hf := List.mem_of_getElem? q2
      rcases b2 with rfl | ⟨j', f', r1, r2, rfl⟩
      · exact (ho.mid _ (hmem f hf)).1.trans (ho.inf _ (hmem f hf)).2
      · exact ho.ord j j' _ _ (by omega) (hget j f q2) (hget j' f' r2)
  · rcases a2 with rfl | ⟨j, f, q1, q2, rfl⟩
    · exact hmx.1
    · have hf := List.mem_of_getElem? q2
      exact (ho.mid _ (hmem f hf)).1.trans (hmx.2 f hf)
  · rcases b2 with rfl | ⟨j', f', r1, r2, rfl⟩
    · exact hmn.1
    · have hf := List.mem_of_getElem? r2
      exact (hmn.2 f' hf).trans (ho.mid _ (hmem f' hf)).2
  · exact (hmn.2 e hem).trans (hmx.2 e hem)

/-! ## The buffer -/

theorem fillOld_spec {start : Nat} (es : List Entry) : ∀ {buf old : List Entry}, fillOld start es buf = some old →
    (es.map Entry.oldIdx).Nodup →
    old.length = buf.length ∧ (∀ e ∈ es, ∃ o, e.oldIdx = some o ∧ start ≤ o ∧ o - start < buf.length ∧ old[o - start]? = some e) ∧
      ∀ k : Nat, (∀ e ∈ es, e.oldIdx ≠ some (start + k)) → old[k]? = buf[k]? := by
  induction es with
  | nil =>
    intro buf old h _
    simp only [fillOld, Option.some.injEq] at h
    subst h
    exact ⟨rfl, by simp, by simp⟩
  | cons e es ih =>
    intro buf old h hn
    rw [List.map_cons, List.nodup_cons] at hn
    simp only [fillOld] at h
    split at h
    · simp at h
    rename_i o ho
    split_ifs at h with hc
    obtain ⟨h1, h2, h3⟩ := ih h hn.2
    rw [List.length_set] at h1
    refine ⟨h1, ?_, ?_⟩
    · intro f hf
      rcases List.mem_cons.1 hf with rfl | hf
      · refine ⟨o, ho, hc.1, hc.2, ?_⟩
        rw [h3 (o - start) (by
          intro g hg hg2
          have : start + (o - start) = o := by omega
          rw [this] at hg2
          exact hn.1 (by rw [ho, ← hg2]; exact List.mem_map_of_mem hg))]
        rw [List.getElem?_set_self hc.2]
      · obtain ⟨p, r1, r2, r3, r4⟩ := h2 f hf
        rw [List.length_set] at r3
        exact ⟨p, r1, r2, r3, r4⟩
    · intro k hk
      rw [h3 k fun f hf => hk f (by simp [hf])]
      have hne : o - start ≠ k := by
        intro heq
        refine hk e (by simp) ?_
        rw [ho]
        congr 1
        omega
      rw [List.getElem?_set_ne hne]

/-- The entries in the old order. -/
theorem fillOld_perm {start : Nat} {part buf old : List Entry} (h : fillOld start part buf = some old) (hb : buf.length = part.length)
    (hn : (part.map Entry.oldIdx).Nodup) :
    old.length = part.length ∧ old.Perm part ∧ ∀ (k : Nat) (e : Entry), old[k]? = some e → e.oldIdx = some (start + k) := by
  obtain ⟨h1, h2, -⟩ := fillOld_spec part h hn
  -- the places of the entries are all the places there are
  have hinj : ∀ e ∈ part, ∀ f ∈ part, e.oldIdx = f.oldIdx → e = f := by
    intro e he f hf hef
    exact List.inj_on_of_nodup_map hn he hf hef
  have hnd : part.Nodup := List.Nodup.of_map _ hn
  have hall : ∀ k : Nat, k < part.length → ∃ e ∈ part, e.oldIdx = some (start + k) ∧ old[k]? = some e := by
    -- by counting
    have hq : (part.map fun e => e.oldIdx.getD 0 - start).Nodup := by
      rw [List.nodup_map_iff_inj_on hnd]
      intro e he f hf hef
      obtain ⟨o, r1, r2, _⟩ := h2 e he
      obtain ⟨p, q1, q2, _⟩ := h2 f hf
      rw [r1, q1] at hef
      simp only [Option.getD_some] at hef
      refine hinj e he f hf ?_
      rw [r1, q1]
      congr 1
      omega
    have hsub : (part.map fun e => e.oldIdx.getD 0 - start).Subperm (List.range part.length) := by
      refine List.subperm_of_subset hq ?_
      intro k hk
      obtain ⟨e, he, rfl⟩ := List.mem_map.1 hk
      obtain ⟨o, r1, r2, r3, _⟩ := h2 e he
      rw [r1, List.mem_range]
      simp only [Option.getD_some]
      omega
    have hperm := hsub.perm_of_length_le (by simp)
    intro k hk
    have : k ∈ part.map fun e => e.oldIdx.getD 0 - start := hperm.mem_iff.2 (List.mem_range.2 hk)
    obtain ⟨e, he, rfl⟩ := List.mem_map.1 this
    obtain ⟨o, r1, r2, r3, r4⟩ := h2 e he
    refine ⟨e, he, ?_, ?_⟩
    · rw [r1]
      simp only [Option.getD_some]
      congr 1
      omega
    · rw [r1]; exact r4
  have hold : ∀ (k : Nat) (e : Entry), old[k]? = some e → e ∈ part ∧ e.oldIdx = some (start + k) := by
    intro k e he
    have hlt := (List.getElem?_eq_some_iff.1 he).1
    obtain ⟨f, h3, h4, h5⟩ := hall k (by omega)
    rw [he, Option.some.injEq] at h5
    subst h5
    exact ⟨h3, h4⟩
  refine ⟨by omega, ?_, fun k e he => (hold k e he).2⟩
  have hndo : old.Nodup := by
    rw [List.nodup_iff_getElem?_ne_getElem?]
    intro i j hij hj heq
    have hi : i < old.length := by omega
    have e1 := (hold i old[i] (List.getElem?_eq_getElem hi)).2
    have e2 := (hold j old[j] (List.getElem?_eq_getElem hj)).2
    rw [List.getElem?_eq_getElem hi, List.getElem?_eq_getElem hj, Option.some.injEq] at heq
    rw [heq, e2, Option.some.injEq] at e1
    omega
  rw [List.perm_ext_iff_of_nodup hndo hnd]
  intro e
  constructor
  · intro he
    obtain ⟨k, hk⟩ := List.mem_iff_getElem?.1 he
    exact (hold k e hk).1
  · intro he
    obtain ⟨o, _, _, _, r⟩ := h2 e he
    exact List.mem_of_getElem? r

/-! ## The two passes -/

/-- The event made by the first pass. -/
def mainEvent (E : Env K) (e : Entry) (x0 : K) : OutputEvent K :=
  ⟨x0, e.oldSeg.isSome || !e.enter, E.negInf, !e.exit, e.oldSegId, none, e.oldIdx⟩

theorem oldPass_spec (E : Env K) (y : K) (ps : List (Entry × K × K)) : ∀ (m : K),
    ps.Pairwise (fun p q => p.2.2 ≤ q.2.2) → ∃ xs : List K, xs.length = ps.length ∧ xs.Pairwise (· ≤ ·) ∧
      oldPass E y ps m = (ps.zip xs).map (fun p => mainEvent E p.1.1 p.2) ∧ ((∀ p ∈ ps, m ≤ p.2.2) → ∀ x ∈ xs, m ≤ x) ∧
      ∀ p ∈ ps.zip xs, p.1.2.1 ≤ p.1.2.2 → p.1.2.1 ≤ p.2 ∧ p.2 ≤ p.1.2.2 := by
  induction ps with
  | nil => intro m _; exact ⟨[], rfl, .nil, rfl, by simp, by simp⟩
  | cons p ps ih =>
    intro m hp
    obtain ⟨e, lo, hi⟩ := p
    rw [List.pairwise_cons] at hp
    simp only [oldPass]
    generalize (if e.exit = true then E.endX e.oldSegId else if e.enter = true then E.startX e.seg else E.atY e.seg y) = pref
    obtain ⟨xs, h1, h2, h3, h4, h5⟩ := ih (min (max (max pref lo) m) hi) hp.2
    refine ⟨min (max (max pref lo) m) hi :: xs, by simp [h1], ?_, ?_, ?_, ?_⟩
    · rw [List.pairwise_cons]
      refine ⟨fun x hx => h4 (fun q hq => (min_le_right _ _).trans (hp.1 q hq)) x hx, h2⟩
    · rw [h3, List.zip_cons_cons, List.map_cons]; rfl
    · intro hm x hx
      have h0 : m ≤ min (max (max pref lo) m) hi := le_min (le_max_right _ _) (hm (e, lo, hi) (by simp))
      rcases List.mem_cons.1 hx with rfl | hx
      · exact h0
      · exact h0.trans (h4 (fun q hq => (min_le_right _ _).trans (hp.1 q hq)) x hx)
    · intro q hq hle
      rw [List.zip_cons_cons] at hq
      rcases List.mem_cons.1 hq with rfl | hq
      · exact ⟨le_min ((le_max_right _ _).trans (le_max_left _ _)) hle, min_le_right _ _⟩
      · exact h5 q hq hle

/-- The second event of a segment that continues another one. -/
def extraEvent (e : Entry) (i : Nat) (x1 : K) : Option (OutputEvent K) :=
  if e.oldSeg.isSome then some ⟨x1, false, x1, true, e.seg, some i, none⟩ else none

theorem newPass_spec {E : Env K} {y : K} {start : Nat} (ps : List (Entry × K × K)) : ∀ {idx : Nat} {base ext r : List (OutputEvent K)} {m : K},
    newPass E y start ps idx (base ++ ext) m = some r → ps.Pairwise (fun p q => p.2.2 ≤ q.2.2) →
    (ps.map fun p => p.1.oldIdx).Nodup → (∀ p ∈ ps, ∀ o, p.1.oldIdx = some o → o - start < base.length) →
    ∃ (xs : List K) (base' : List (OutputEvent K)), xs.length = ps.length ∧ xs.Pairwise (· ≤ ·) ∧ ((∀ p ∈ ps, m ≤ p.2.2) → ∀ x ∈ xs, m ≤ x) ∧
      r = base' ++ ext ++ ((ps.zip xs).zipIdx (start + idx)).filterMap (fun q => extraEvent q.1.1.1 q.2 q.1.2) ∧ base'.length = base.length ∧
      (∀ (j : Nat) (p : Entry × K × K) (x : K), ps[j]? = some p → xs[j]? = some x → ∃ o ev, p.1.oldIdx = some o ∧ start ≤ o ∧
        base[o - start]? = some ev ∧ ev.segIdx = p.1.oldSegId ∧
        base'[o - start]? = some { ev with sweepIdx := some (start + idx + j), x1 := x }) ∧
      (∀ k : Nat, (∀ p ∈ ps, p.1.oldIdx ≠ some (start + k)) → base'[k]? = base[k]?) ∧
      ∀ p ∈ ps.zip xs, p.1.2.1 ≤ p.1.2.2 → p.1.2.1 ≤ p.2 ∧ p.2 ≤ p.1.2.2 := by
  induction ps with
  | nil =>
    intro idx base ext r m h _ _ _
    simp only [newPass, Option.some.injEq] at h
    subst h
    exact ⟨[], base, rfl, .nil, by simp, by simp, rfl, by simp, by simp, by simp⟩
  | cons p ps ih =>
    intro idx base ext r m h hp hn hlt
    obtain ⟨e, lo, hi⟩ := p
    rw [List.pairwise_cons] at hp
    rw [List.map_cons, List.nodup_cons] at hn
    simp only [newPass] at h
    split at h
    · simp at h
    rename_i o ho
    by_cases hos : o < start
    · rw [if_pos hos] at h; simp at h
    rw [if_neg hos] at h
    split at h
    · simp at h
    rename_i ev hev
    by_cases hseg : ev.segIdx = e.oldSegId
    swap
    · rw [if_neg hseg] at h; simp at h
    rw [if_pos hseg] at h
    have hob := hlt _ (List.mem_cons_self) o ho
    rw [List.getElem?_append_left hob] at hev
    generalize hpref : (if lo ≤ ev.x0 ∧ ev.x0 ≤ hi then ev.x0 else E.atY e.seg y) = pref at h
    generalize hx1 : min (max (max pref lo) m) hi = x1 at h
    have hx1hi : x1 ≤ hi := by rw [← hx1]; exact min_le_right _ _
    have hset : (base ++ ext).set (o - start) { ev with sweepIdx := some (start + idx), x1 := x1 } =
        base.set (o - start) { ev with sweepIdx := some (start + idx), x1 := x1 } ++ ext := by
      rw [List.set_append, if_pos hob]
    rw [hset] at h
    have hform : (if e.oldSeg.isSome = true then base.set (o - start) { ev with sweepIdx := some (start + idx), x1 := x1 } ++ ext ++
        [⟨x1, false, x1, true, e.seg, some (start + idx), none⟩] else base.set (o - start) { ev with sweepIdx := some (start + idx), x1 := x1 } ++ ext) =
        base.set (o - start) { ev with sweepIdx := some (start + idx), x1 := x1 } ++ (ext ++ (extraEvent e (start + idx) x1).toList) := by
      unfold extraEvent
      split_ifs <;> simp
    rw [hform] at h
    obtain ⟨xs, base', g1, g2, g3, g4, g5, g6, g7, g8⟩ := ih h hp.2 hn.2 (by
      intro q hq o' ho'
      rw [List.length_set]
      exact hlt q (by simp [hq]) o' ho')
    rw [List.length_set] at g5
    have hbase' : base'[o - start]? = some { ev with sweepIdx := some (start + idx), x1 := x1 } := by
      rw [g7 (o - start), List.getElem?_set_self hob]
      intro q hq hq2
      have : start + (o - start) = o := by omega
      rw [this] at hq2
      exact hn.1 (List.mem_map.2 ⟨q, hq, by rw [hq2]; exact ho.symm⟩)
    refine ⟨x1 :: xs, base', by simp [g1], ?_, ?_, ?_, g5, ?_, ?_, ?_⟩
    · rw [List.pairwise_cons]
      exact ⟨fun x hx => g3 (fun q hq => hx1hi.trans (hp.1 q hq)) x hx, g2⟩
    · intro hm x hx
      have h0 : m ≤ x1 := by rw [← hx1]; exact le_min (le_max_right _ _) (hm (e, lo, hi) (by simp))
      rcases List.mem_cons.1 hx with rfl | hx
      · exact h0
      · exact h0.trans (g3 (fun q hq => hx1hi.trans (hp.1 q hq)) x hx)
    · rw [g4, List.zip_cons_cons, List.zipIdx_cons, List.filterMap_cons]
      have : start + (idx + 1) = start + idx + 1 := by omega
      rw [this]
      cases hh : extraEvent e (start + idx) x1 <;> simp
    · intro j q x hj hx
      cases j with
      | zero =>
        simp only [List.getElem?_cons_zero, Option.some.injEq] at hj hx
        subst hj hx
        exact ⟨o, ev, ho, by omega, hev, hseg, hbase'⟩
      | succ j =>
        simp only [List.getElem?_cons_succ] at hj hx
        obtain ⟨o', ev', r1, r2, r3, r4, r5⟩ := g6 j q x hj hx
        have hne : o - start ≠ o' - start := by
          intro heq
          have : o = o' := by omega
          subst this
          exact hn.1 (List.mem_map.2 ⟨q, List.mem_of_getElem? hj, by rw [r1]; exact ho.symm⟩)
        rw [List.getElem?_set_ne hne] at r3
        refine ⟨o', ev', r1, r2, r3, r4, ?_⟩
        rw [r5]
        have : start + (idx + 1) + j = start + idx + (j + 1) := by omega
        rw [this]
    · intro k hk
      rw [g7 k fun q hq => hk q (by simp [hq])]
      have hne : o - start ≠ k := by
        intro heq
        refine hk _ (List.mem_cons_self) ?_
        dsimp only
        rw [ho]
        congr 1
        omega
      rw [List.getElem?_set_ne hne]
    · intro q hq hle
      rw [List.zip_cons_cons] at hq
      rcases List.mem_cons.1 hq with rfl | hq
      · exact ⟨by rw [← hx1]; exact le_min ((le_max_right _ _).trans (le_max_left _ _)) hle, hx1hi⟩
      · exact g8 q hq hle

end Verif.Sweep
