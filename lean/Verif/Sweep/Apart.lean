import Verif.Sweep.Across
import Verif.Merge.Props

/-! # Neighbours between which a segment starts are apart -/

namespace Verif.Sweep
open Verif.Curve Verif.Range Verif.Topo Verif.Scan Verif.Merge
set_option linter.unusedSectionVars false

variable {K : Type} [LinearOrder K] {W : Type} [AddCommGroup W] [DecidableEq W]
variable {E : Env K} {single : Nat → Bool → W}

/-- A list without repetitions is cut at an element in one way. -/
theorem cut_unique {α : Type} {l1 l2 m1 m2 : List α} {a : α} (nd : (l1 ++ a :: l2).Nodup) (e : l1 ++ a :: l2 = m1 ++ a :: m2) : l2 = m2 := by
  induction l1 generalizing m1 with
  | nil =>
    cases m1 with
    | nil => simpa using e
    | cons b m1 =>
      simp only [List.nil_append, List.cons_append, List.cons.injEq] at e
      obtain ⟨rfl, rfl⟩ := e
      simp at nd
  | cons b l1 ih =>
    cases m1 with
    | nil =>
      simp only [List.nil_append, List.cons_append, List.cons.injEq] at e
      obtain ⟨rfl, rfl⟩ := e
      simp at nd
    | cons c m1 =>
      simp only [List.cons_append, List.cons.injEq] at e
      rw [List.cons_append, List.nodup_cons] at nd
      exact ih nd.2 e.2

/-- If `j` is the second output segment that starts right next to `c` on its east side, and the first one, `i`, and `c` both go on at that height, they are
apart there. -/
def Apart (E : Env K) (t : Topo K W) : Prop :=
  ∀ c i j, i < j → j < t.n → t.scanWest i = some c → t.scanWest j = some c → ¬ Merge.Horiz t i → ¬ Merge.Horiz t j →
    (∀ k < j, t.scanWest k = some c → ¬ Merge.Horiz t k → k = i) →
    ∃ y, StartsAt t j y ∧ ((∃ y' ≤ y, Scan.EndsAt t i y') ∨ (∃ y' ≤ y, Scan.EndsAt t c y') ∨ E.upper2 (t.origSeg c) y < E.lower2 (t.origSeg i) y)

theorem Trail.apart (hsingle : ∀ s b, single s (!b) = - single s b) (hbox : E.Boxed) {F : SState K W} (h : Trail E single F) : Apart E F.t := by
  induction h with
  | init => intro c i j _ hj; simp [SState.init, Topo.init] at hj
  | range hist A B y evs Eo En t t' yl done hT hyp hlast hp hsp ih =>
    have hst := hT.steps
    have inv := hst.run.inv hsingle
    have hst' : Steps single E.orient SState.init _ := .tail _ _ _ hst (.range hist A B y evs Eo En t t' yl done hyp hlast hp)
    have inv' := hst'.run.inv hsingle
    dsimp only at inv
    obtain ⟨nOf, R⟩ := range_res hsingle hyp inv hp
    have nd' := (hst'.ainv hsingle).nodup
    dsimp only at inv' nd' ih ⊢
    have hnle := R.n_le
    obtain ⟨ps, hps, _⟩ := R.points_old
    have hpt : ∀ (p : Nat) q, t.points[p]? = some q → t'.points[p]? = some q := by
      intro p q hq
      rw [hps, List.getElem?_append_left (List.getElem?_eq_some_iff.1 hq).1]; exact hq
    have hends : ∀ i z, Scan.EndsAt t i z → Scan.EndsAt t' i z := by
      rintro i z ⟨p, x, h1, h2⟩
      exact ⟨p, x, R.pidx_old _ _ h1, hpt _ _ h2⟩
    have hstarts : ∀ i z, StartsAt t i z → StartsAt t' i z := by
      rintro i z ⟨p, x, h1, h2⟩
      exact ⟨p, x, R.pidx_old _ _ h1, hpt _ _ h2⟩
    have hhor : ∀ i < t.n, Merge.Horiz t' i ↔ Merge.Horiz t i := by
      intro i hi
      constructor
      · rintro ⟨a, b, hr, hab⟩
        by_cases hc : t.pointIdx ⟨i, false⟩ = none
        · exact absurd hab (R.vert_old i hi hc a b hr)
        · obtain ⟨q, hq⟩ := Option.ne_none_iff_exists'.1 hc
          obtain ⟨p, hp'⟩ := Option.isSome_iff_exists.1 (inv.good.firstSome i hi)
          have e1 := List.getElem?_eq_getElem (inv.good.ptLt _ _ hp').1
          have e2 := List.getElem?_eq_getElem (inv.good.ptLt _ _ hq).1
          obtain ⟨rfl, rfl⟩ := runs_iff (R.pidx_old _ _ hp') (R.pidx_old _ _ hq) (hpt _ _ e1) (hpt _ _ e2) hr
          exact ⟨_, _, ⟨p, q, hp', hq, e1, e2⟩, hab⟩
      · rintro ⟨a, b, ⟨p, q, h1, h2, h3, h4⟩, hab⟩
        exact ⟨a, b, ⟨p, q, R.pidx_old _ _ h1, R.pidx_old _ _ h2, hpt _ _ h3, hpt _ _ h4⟩, hab⟩
    have houtlt : ∀ a ∈ A ++ Eo.map OutputEvent.segIdx ++ B, t.openSegs a = [out t a] ∧ out t a < t.n ∧ t.origSeg (out t a) = a ∧ t.pointIdx ⟨out t a, false⟩ = none := by
      intro a ha
      obtain ⟨o, _, _, _, h1, _⟩ := inv.openIn a ha
      have h2 := (inv.good.openIff o a).1 (by rw [h1]; simp)
      have h3 : out t a = o := by unfold out; rw [h1]; rfl
      rw [h3]
      exact ⟨h1, h2⟩
    -- the new segments
    have ndN : (En.map fun e => nOf e.segIdx).Nodup := by
      have : (En.map fun e => nOf e.segIdx) = (En.map OutputEvent.segIdx).map (out t') := by
        rw [List.map_map]
        apply List.map_congr_left
        intro e he
        simp [out, (R.new e he).1]
      rw [this]
      rw [List.map_append, List.map_append] at nd'
      exact (List.nodup_append.1 (List.nodup_append.1 nd').1).2.1
    have isNew : ∀ i, t.n ≤ i → i < t'.n → ¬ Merge.Horiz t' i → ∃ l1 l2, (En.map fun e => nOf e.segIdx) = l1 ++ i :: l2 := by
      intro i h1 h2 h3
      rcases R.kinds i h1 h2 with ⟨e, he, rfl⟩ | ⟨a, b, hr⟩
      · exact List.append_of_mem (List.mem_map_of_mem (f := fun e => nOf e.segIdx) he)
      · exact absurd ⟨_, _, hr, rfl⟩ h3
    have newLe : ∀ i ∈ (En.map fun e => nOf e.segIdx), t.n ≤ i := by
      intro i hi
      obtain ⟨e, he, rfl⟩ := List.mem_map.1 hi
      exact (R.new e he).2.1
    have hwlt : ∀ a, A.getLast?.map (out t) = some a → a < t.n := by
      intro a ha
      obtain ⟨b, hb, rfl⟩ := Option.map_eq_some_iff.1 ha
      exact (houtlt b (by simp [List.mem_of_getLast? hb])).2.1
    intro c i j hij hj hwi hwj hhi hhj huniq
    by_cases hjt : j < t.n
    · obtain ⟨z, z1, z2⟩ := ih c i j hij hjt (by rw [← R.west_old i (by omega)]; exact hwi) (by rw [← R.west_old j hjt]; exact hwj)
        (by rw [← hhor i (by omega)]; exact hhi) (by rw [← hhor j hjt]; exact hhj) (by
          intro k hk h1 h2
          exact huniq k hk (by rw [R.west_old k (by omega)]; exact h1) (by rw [hhor k (by omega)]; exact h2))
      have hct : c < t.n := (inv'.good.west j hj c hwj).trans hjt
      refine ⟨z, hstarts _ _ z1, ?_⟩
      rw [R.orig_old c hct, R.orig_old i (by omega)]
      rcases z2 with ⟨y', h1, h2⟩ | ⟨y', h1, h2⟩ | h1
      · exact .inl ⟨y', h1, hends _ _ h2⟩
      · exact .inr (.inl ⟨y', h1, hends _ _ h2⟩)
      · exact .inr (.inr h1)
    obtain ⟨l1, l2, hl⟩ := isNew j (not_lt.1 hjt) hj hhj
    have hjw := R.west l1 j l2 hl
    rw [hwj] at hjw
    have hjst : StartsAt t' j y := by
      have : j ∈ (En.map fun e => nOf e.segIdx) := by rw [hl]; simp
      obtain ⟨e, he, rfl⟩ := List.mem_map.1 this
      obtain ⟨_, _, _, p, h1, h2⟩ := R.new e he
      exact ⟨p, _, h1, h2⟩
    refine ⟨y, hjst, ?_⟩
    rcases List.eq_nil_or_concat l1 with rfl | ⟨l1', c', rfl⟩
    swap
    · -- the neighbour is new, too
      exfalso
      rw [List.concat_eq_append] at hl hjw
      have hc : c = c' := by simpa using hjw
      subst hc
      have hcn : t.n ≤ c := newLe c (by rw [hl]; simp)
      have hci := inv'.good.west i (by omega) c hwi
      obtain ⟨m1, m2, hm⟩ := isNew i (by omega) (by omega) hhi
      have hiw := R.west m1 i m2 hm
      rw [hwi] at hiw
      rcases List.eq_nil_or_concat m1 with rfl | ⟨m1', c'', rfl⟩
      · have := hwlt c (by simpa using hiw.symm)
        omega
      · rw [List.concat_eq_append] at hm hiw
        have hc : c = c'' := by simpa using hiw
        subst hc
        have e : l1' ++ c :: (j :: l2) = m1' ++ c :: (i :: m2) := by
          rw [List.append_assoc, List.singleton_append] at hl hm
          rw [← hl, ← hm]
        rw [hl, List.append_assoc, List.singleton_append] at ndN
        have := cut_unique ndN e
        simp at this
        omega
    · have hc : A.getLast?.map (out t) = some c := by simpa using hjw.symm
      obtain ⟨a, hA, rfl⟩ := Option.map_eq_some_iff.1 hc
      have hcn := hwlt _ hc
      have hAm : a ∈ A := List.mem_of_getLast? hA
      obtain ⟨ha1, -, ha3, ha4⟩ := houtlt a (by simp [hAm])
      have hin : i < t.n := by
        by_contra hin
        obtain ⟨m1, m2, hm⟩ := isNew i (not_lt.1 hin) (by omega) hhi
        have hiw := R.west m1 i m2 hm
        rw [hwi] at hiw
        rcases List.eq_nil_or_concat m1 with rfl | ⟨m1', c'', rfl⟩
        · rw [hl] at hm
          simp at hm
          omega
        · rw [List.concat_eq_append] at hm hiw
          have hc' : out t a = c'' := by simpa using hiw
          have := newLe c'' (by rw [hm]; simp)
          omega
      have hadj := inv.adj i (out t a) hin (by rw [← R.west_old i hin]; exact hwi) (by
          intro k hk h1 h2
          refine huniq k (by omega) (by rw [R.west_old k hk]; exact h1) ?_
          rw [hhor k hk]
          rintro ⟨p, q, hr, hpq⟩
          exact h2 p q hr hpq) (by
          intro p q hr hpq
          exact hhi ((hhor i hin).2 ⟨p, q, hr, hpq⟩))
      rw [R.orig_old _ hcn, R.orig_old i hin]
      by_cases hopen : t.pointIdx ⟨i, false⟩ = none
      · have hcons := hadj.1 ha4 hopen
        rw [ha3] at hcons
        obtain ⟨A', hA'⟩ := List.getLast?_eq_some_iff.1 hA
        have hlin : i = out t (t.origSeg i) := by
          obtain ⟨h1, _⟩ := houtlt _ hcons.mem.2
          have := (inv.good.openIff i (t.origSeg i)).2 ⟨hin, rfl, hopen⟩
          rw [h1] at this
          simpa using this
        obtain ⟨p1, p2, hp12⟩ := hcons
        have e : A' ++ a :: (Eo.map OutputEvent.segIdx ++ B) = p1 ++ a :: (t.origSeg i :: p2) := by
          rw [← hp12, hA']; simp
        have nd := inv.nodup
        rw [hA', List.append_assoc, List.append_assoc, List.singleton_append] at nd
        have e2 := cut_unique nd e
        cases Eo with
        | cons e0 Eo =>
          left
          simp only [List.map_cons, List.cons_append, List.cons.injEq] at e2
          obtain ⟨p, h1, h2⟩ := R.closed e0 (by simp)
          rw [e2.1, ← hlin] at h1
          exact ⟨y, le_rfl, p, _, h1, h2⟩
        | nil =>
          right; right
          rw [ha3]
          refine hsp hbox rfl ?_ a _ hA ?_
          · rintro rfl; simp at hl
          · have : B = t.origSeg i :: p2 := by simpa using e2
            rw [this]; rfl
      · left
        obtain ⟨q, hq⟩ := Option.ne_none_iff_exists'.1 hopen
        have e2 := List.getElem?_eq_getElem (inv.good.ptLt _ _ hq).1
        obtain ⟨w, hw, hwe⟩ := inv.heights _ (List.mem_of_getElem? e2)
        refine ⟨_, ?_, q, _, R.pidx_old _ _ hq, hpt _ _ e2⟩
        exact hwe ▸ hyp.down w hw

/-- Between coincident segments nothing starts. -/
theorem Trail.noneBelow (hsingle : ∀ s b, single s (!b) = - single s b) (hbox : E.Boxed) {F : SState K W} (h : Trail E single F) (hend : F.line = [])
    {close : Nat → Nat → K → K → Bool}
    (hclose : ∀ c i y p q, i < F.t.n → Coincident close F.t c i → Runs F.t i p q → p.2 ≤ y → y < q.2 → ¬ E.upper2 (F.t.origSeg c) y < E.lower2 (F.t.origSeg i) y) :
    NoneBelow close F.t := by
  intro c i hi hco j hj hwj hhj
  have hst := h.steps
  have inv := hst.run.inv hsingle
  obtain ⟨Bk, hs, hl⟩ := inv.shape
  have hsucc := (coinc_core inv.good hs hl hi hco).1
  have hcj := inv.good.west j hj c hwj
  by_contra hne
  obtain ⟨p, q, hr, hpq, _⟩ := hco.close
  have hhi : ¬ Merge.Horiz F.t i := by
    rintro ⟨a, b, hr', hab⟩
    obtain ⟨p', q', k1, k2, k3, k4⟩ := hr
    obtain ⟨rfl, rfl⟩ := runs_iff k1 k2 k3 k4 hr'
    exact hpq hab
  -- the first one after `i`
  have hex : ∃ j, i < j ∧ j < F.t.n ∧ F.t.scanWest j = some c ∧ ¬ Merge.Horiz F.t j := ⟨j, by omega, hj, hwj, hhj⟩
  classical
  obtain ⟨g1, g2, g3, g4⟩ := Nat.find_spec hex
  have hmin := fun k (hk : k < Nat.find hex) => Nat.find_min hex hk
  generalize Nat.find hex = g at g1 g2 g3 g4 hmin
  obtain ⟨y, hy, hcase⟩ := h.apart hsingle hbox c i g g1 g2 hco.west g3 hhi g4 (by
    intro k hk h1 h2
    by_contra hki
    have := inv.good.west k (by omega) c h1
    exact hmin k hk ⟨by omega, by omega, h1, h2⟩)
  have ai := hst.ainv hsingle
  have hw := ((ai.wOk g y (some c) (.inl ⟨g2, g4, hy, by simp, g3⟩)).2 c rfl).2
  obtain ⟨⟨ys, hys, hle⟩, -⟩ := (ai.wOk g y (some c) (.inl ⟨g2, g4, hy, by simp, g3⟩)).2 c rfl
  obtain ⟨hcn, hch, p0, x0, hp0, hq0⟩ := hys
  obtain ⟨a, b, k1, k2, k3, k4⟩ := hr
  have ecv : ∀ z, Scan.EndsAt F.t i z → z = q.2 := by
    rintro z ⟨b', x, h1, h2⟩
    rw [k2] at h1
    obtain rfl : b = b' := by simpa using h1
    rw [k4] at h2
    have : q = (x, z) := by simpa using h2
    rw [this]
  have hce : Cv F.t c q.2 := ⟨hcn, hch, b, q.1, by rw [← hco.stop]; exact k2, k4⟩
  have hyq := hw _ hce
  have hstart : ys = p.2 := by
    rw [← hco.start, k1] at hp0
    obtain rfl : a = p0 := by simpa using hp0
    rw [k3] at hq0
    have : p = (x0, ys) := by simpa using hq0
    rw [this]
  rcases hcase with ⟨y', h1, h2⟩ | ⟨y', h1, h2⟩ | h1
  · rw [ecv y' h2] at h1
    exact absurd h1 (not_le.2 hyq)
  · obtain ⟨b', x, h3, h4⟩ := h2
    rw [← hco.stop] at h3
    rw [ecv y' ⟨b', x, h3, h4⟩] at h1
    exact absurd h1 (not_le.2 hyq)
  · exact hclose c i y p q hi hco ⟨a, b, k1, k2, k3, k4⟩ (hstart ▸ hle) hyq h1

end Verif.Sweep
