import Verif.Sweep.Horiz

/-! Changed intervals around the ends of segments. -/

namespace Verif.Sweep
open Verif.Curve Verif.Range Verif.Topo
set_option linter.unusedSectionVars false

variable {K : Type} [LinearOrder K]

theorem le_takeWhile {α : Type} (p : α → Bool) (l : List α) (m : Nat) (hm : m ≤ l.length)
    (h : ∀ (k : Nat) (a : α), k < m → l[k]? = some a → p a = true) : m ≤ (l.takeWhile p).length := by
  induction l generalizing m with
  | nil => simpa using hm
  | cons b l ih =>
    cases m with
    | zero => omega
    | succ m =>
      have h0 := h 0 b (by omega) rfl
      rw [List.takeWhile_cons, if_pos h0, List.length_cons]
      have := ih m (by simpa using hm) fun k a hk ha => h (k + 1) a (by omega) (by simpa using ha)
      omega

/-- Where the entry has its end. -/
def endPos (E : Env K) (e : Entry) : K := if e.enter then E.startX e.seg else E.endX e.seg

/-- From the place `j`, whose segment has an end at `x`, the interval reaches `j'`. -/
def Reach (E : Env K) (y : K) (L : List Entry) (x : K) (j j' : Nat) : Prop :=
  (j' < j ∧ ∀ (k : Nat) (f : Entry), j' ≤ k → k < j → L[k]? = some f → x ≤ E.upper2 f.seg y) ∨
  (j < j' ∧ j' < L.length ∧ ∀ (k : Nat) (f : Entry), j < k → k ≤ j' → L[k]? = some f → E.lower2 f.seg y ≤ x)

theorem Same.core {L L' : List Entry} (h : Same L L') {i : Nat} {e e' : Entry} (h1 : L[i]? = some e) (h2 : L'[i]? = some e') :
    e'.seg = e.seg ∧ e'.enter = e.enter ∧ e'.exit = e.exit ∧ e'.oldSeg = e.oldSeg := by
  have := (h.place i e e' h1 h2).2.1
  simp only [Entry.core, Entry.mk.injEq] at this
  tauto

theorem Reach.same {E : Env K} {y : K} {L L' : List Entry} (h : Same L L') {x : K} {j j' : Nat} (hr : Reach E y L x j j') :
    Reach E y L' x j j' := by
  rcases hr with ⟨h1, h2⟩ | ⟨h1, h2, h3⟩
  · refine .inl ⟨h1, ?_⟩
    intro k f hk hk' hf
    obtain ⟨e, he⟩ := h.get hf
    rw [(h.core he hf).1]
    exact h2 k e hk hk' he
  · refine .inr ⟨h1, by rw [h.len]; exact h2, ?_⟩
    intro k f hk hk' hf
    obtain ⟨e, he⟩ := h.get hf
    rw [(h.core he hf).1]
    exact h3 k e hk hk' he

theorem markOld_nil (line : List Entry) (a : Nat) : markOld line a a = line := by
  apply List.ext_getElem?
  intro i
  exact markOld_out (by omega)

theorem contourLoop_spec {E : Env K} {y : K} {L : List Entry} {snp : List Nat} (js : List Nat) (hjs : ∀ j ∈ js, j ∈ snp) :
    ∀ {line : List Entry} {chg : List CI} {r : List Entry × List CI}, contourLoop E y js line chg = some r →
      Marking L line snp chg → Marking L r.1 snp r.2 ∧ (∀ c ∈ chg, c ∈ r.2) ∧ Same line r.1 ∧
        (r.2.filter fun c => c.hz.isSome) = (chg.filter fun c => c.hz.isSome) ∧
        (∀ (i : Nat) (e e' : Entry), line[i]? = some e → r.1[i]? = some e' → e'.inCh = e.inCh) ∧
        ∀ j ∈ js, ∀ e, line[j]? = some e → e.oldSeg = none → (e.enter = true ∨ e.exit = true) →
          ∀ j', Reach E y line (endPos E e) j j' → ∃ c ∈ r.2, c.start ≤ j ∧ j < c.stop ∧ c.start ≤ j' ∧ j' < c.stop := by
  induction js with
  | nil =>
    intro line chg r h hm
    simp only [contourLoop, Option.some.injEq] at h
    subst h
    refine ⟨hm, fun _ h => h, Same.refl _, rfl, ?_, by simp⟩
    intro i e e' h1 h2
    rw [h1, Option.some.injEq] at h2
    rw [h2]
  | cons j js ih =>
    have hjs' : ∀ j ∈ js, j ∈ snp := fun i hi => hjs i (by simp [hi])
    intro line chg r h hm
    simp only [contourLoop] at h
    split at h
    · simp at h
    rename_i e he
    have hlt := (List.getElem?_eq_some_iff.1 he).1
    by_cases ho : e.oldSeg.isSome = true
    · rw [if_pos ho] at h
      obtain ⟨h1, h2, h3, h4, h5, h6⟩ := ih hjs' h hm
      refine ⟨h1, h2, h3, h4, h5, ?_⟩
      intro i hi f hf hfo hfe j' hr
      rcases List.mem_cons.1 hi with rfl | hi
      · rw [he, Option.some.injEq] at hf
        subst hf
        rw [hfo] at ho
        simp at ho
      · exact h6 i hi f hf hfo hfe j' hr
    rw [if_neg ho] at h
    by_cases hf : (!(e.enter || e.exit)) = true
    · rw [if_pos hf] at h
      obtain ⟨h1, h2, h3, h4, h5, h6⟩ := ih hjs' h hm
      refine ⟨h1, h2, h3, h4, h5, ?_⟩
      intro i hi f hf' hfo hfe j' hr
      rcases List.mem_cons.1 hi with rfl | hi
      · rw [he, Option.some.injEq] at hf'
        subst hf'
        simp only [Bool.not_eq_true', Bool.or_eq_false_iff] at hf
        rcases hfe with hfe | hfe
        · rw [hf.1] at hfe; simp at hfe
        · rw [hf.2] at hfe; simp at hfe
      · exact h6 i hi f hf' hfo hfe j' hr
    rw [if_neg hf] at h
    have hx : (if e.enter = true then E.startX e.seg else E.endX e.seg) = endPos E e := rfl
    rw [hx] at h
    have hA : j - ((line.take j).reverse.takeWhile fun f => decide (endPos E e ≤ E.upper2 f.seg y)).length ≤ j := by omega
    have hAr : ∀ j', j' < j → (∀ (k : Nat) (f : Entry), j' ≤ k → k < j → line[k]? = some f → endPos E e ≤ E.upper2 f.seg y) →
        j - ((line.take j).reverse.takeWhile fun f => decide (endPos E e ≤ E.upper2 f.seg y)).length ≤ j' := by
      intro j' h1 h2
      have := le_takeWhile (fun f : Entry => decide (endPos E e ≤ E.upper2 f.seg y)) (line.take j).reverse (j - j')
        (by rw [List.length_reverse, List.length_take]; omega) (by
          intro k f hk hf
          rw [List.getElem?_reverse (by rw [List.length_take]; omega), List.length_take, List.getElem?_take] at hf
          rw [if_pos (by omega)] at hf
          simp only [decide_eq_true_eq]
          exact h2 _ f (by omega) (by omega) hf)
      omega
    have hjb : j ≤ j + ((line.drop (j + 1)).takeWhile fun f => decide (E.lower2 f.seg y ≤ endPos E e)).length := by omega
    have hB : j + ((line.drop (j + 1)).takeWhile fun f => decide (E.lower2 f.seg y ≤ endPos E e)).length + 1 ≤ line.length := by
      have := (List.takeWhile_prefix (l := line.drop (j + 1)) fun f => decide (E.lower2 f.seg y ≤ endPos E e)).length_le
      rw [List.length_drop] at this
      omega
    have hBr : ∀ j', j < j' → j' < line.length → (∀ (k : Nat) (f : Entry), j < k → k ≤ j' → line[k]? = some f → E.lower2 f.seg y ≤ endPos E e) →
        j' ≤ j + ((line.drop (j + 1)).takeWhile fun f => decide (E.lower2 f.seg y ≤ endPos E e)).length := by
      intro j' h1 h2 h3
      have := le_takeWhile (fun f : Entry => decide (E.lower2 f.seg y ≤ endPos E e)) (line.drop (j + 1)) (j' - j)
        (by rw [List.length_drop]; omega) (by
          intro k f hk hf
          rw [List.getElem?_drop] at hf
          simp only [decide_eq_true_eq]
          exact h3 _ f (by omega) (by omega) hf)
      omega
    generalize j - ((line.take j).reverse.takeWhile fun f => decide (endPos E e ≤ E.upper2 f.seg y)).length = a at *
    generalize j + ((line.drop (j + 1)).takeWhile fun f => decide (E.lower2 f.seg y ≤ endPos E e)).length = b' at *
    by_cases hab : a < b'
    · rw [if_pos hab] at h
      have hsm : Same line (markOld (markOld line a j) (j + 1) (b' + 1)) := (Same.markOld _ _ _).trans (Same.markOld _ _ _)
      have hin : ∀ (i : Nat) (f f' : Entry), line[i]? = some f → (markOld (markOld line a j) (j + 1) (b' + 1))[i]? = some f' → f'.inCh = f.inCh := by
        intro i f f' h1 h2
        obtain ⟨g, hg⟩ := (Same.markOld line a j).get' h1
        rw [markOld_inCh hg h2, markOld_inCh h1 hg]
      have hm' : Marking L (markOld (markOld line a j) (j + 1) (b' + 1)) snp (⟨a, b' + 1, none⟩ :: chg) := by
        refine hm.addMarked hsm ⟨by dsimp only; omega, by dsimp only; omega⟩ hin ?_ ?_ ?_ ?_
        · intro i hi
          dsimp only at hi
          rw [markOld_out (by omega), markOld_out (by omega)]
        · intro _ i f h1 h2 hf'
          dsimp only at h1 h2
          by_cases hij : i = j
          · subst hij; exact .inr (hjs i (by simp))
          · left
            by_cases hi : i < j
            · rw [markOld_out (by omega)] at hf'
              exact markOld_in ⟨h1, hi⟩ hf'
            · exact markOld_in ⟨by omega, h2⟩ hf'
        · intro i hi; exact hi.mono fun c hc => by simp [hc]
        · exact fun d hd => hd
      obtain ⟨h1, h2, h3, h4, h5, h6⟩ := ih hjs' h hm'
      refine ⟨h1, fun c hc => h2 c (by simp [hc]), hsm.trans h3, by rw [h4]; simp, ?_, ?_⟩
      · intro i f f' hf1 hf2
        obtain ⟨g, hg⟩ := hsm.get' hf1
        rw [h5 i g f' hg hf2, hin i f g hf1 hg]
      · intro i hi f hf' hfo hfe j' hr
        rcases List.mem_cons.1 hi with rfl | hi
        · rw [he, Option.some.injEq] at hf'
          subst hf'
          refine ⟨_, h2 _ List.mem_cons_self, ?_⟩
          dsimp only
          rcases hr with ⟨r1, r2⟩ | ⟨r1, r2, r3⟩
          · have := hAr j' r1 r2; omega
          · have := hBr j' r1 r2 r3; omega
        · obtain ⟨g, hg⟩ := hsm.get' hf'
          obtain ⟨c1, c2, c3, c4⟩ := hsm.core hf' hg
          have hep : endPos E g = endPos E f := by unfold endPos; rw [c1, c2]
          refine h6 i hi g hg (by rw [c4]; exact hfo) (by rw [c2, c3]; exact hfe) j' ?_
          rw [hep]
          exact hr.same hsm
    · rw [if_neg hab] at h
      have hnr : ∀ j', ¬ Reach E y line (endPos E e) j j' := by
        intro j' hr
        rcases hr with ⟨r1, r2⟩ | ⟨r1, r2, r3⟩
        · have := hAr j' r1 r2; omega
        · have := hBr j' r1 r2 r3; omega
      have e1 : a = j := by omega
      have e2 : b' = j := by omega
      rw [e1, e2, markOld_nil, markOld_nil] at h
      obtain ⟨h1, h2, h3, h4, h5, h6⟩ := ih hjs' h hm
      refine ⟨h1, h2, h3, h4, h5, ?_⟩
      intro i hi f hf' hfo hfe j' hr
      rcases List.mem_cons.1 hi with rfl | hi
      · rw [he, Option.some.injEq] at hf'
        subst hf'
        exact absurd hr (hnr j')
      · exact h6 i hi f hf' hfo hfe j' hr

end Verif.Sweep
