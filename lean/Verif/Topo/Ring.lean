import Mathlib.Data.List.Chain
import Mathlib.Data.List.Basic
import Verif.Topo.Model

/-! Rings of half-segments around a point, and the operations on them (C23). -/

namespace Verif.Topo
open Verif.Range
set_option linter.unusedSectionVars false

variable {K : Type} [LinearOrder K] {W : Type} [AddCommGroup W]

/-! ## Specification -/

/-- `b` is the clockwise neighbour of `a` and `a` the counter-clockwise neighbour of `b`. -/
def Link (nb : Half → Nbrs) (a b : Half) : Prop := (nb a).cw = b ∧ (nb b).ccw = a

/-- `L` lists, once each and in clockwise order, the members of a circular doubly linked list. -/
def Ring (nb : Half → Nbrs) (L : List Half) : Prop :=
  L.Nodup ∧ (L ++ L.head?.toList).IsChain (Link nb)

/-! ## `link` -/

theorem link_cw (nb : Half → Nbrs) (a b h : Half) :
    (link nb a b h).cw = if h = a then b else (nb h).cw := by
  unfold link set
  by_cases h1 : h = b <;> by_cases h2 : h = a
  · subst h1; subst h2; simp
  · subst h1; simp [h2]
  · subst h2; simp [h1]
  · simp [h1, h2]

theorem link_ccw (nb : Half → Nbrs) (a b h : Half) :
    (link nb a b h).ccw = if h = b then a else (nb h).ccw := by
  unfold link set
  by_cases h1 : h = b
  · simp [h1]
  · by_cases h2 : h = a
    · subst h2; simp [h1]
    · simp [h1, h2]

theorem link_other (nb : Half → Nbrs) (a b h : Half) (h1 : h ≠ a) (h2 : h ≠ b) : link nb a b h = nb h := by
  unfold link set; simp [h1, h2]

theorem Link_link (nb : Half → Nbrs) (a b : Half) : Link (link nb a b) a b := by
  constructor
  · rw [link_cw]; simp
  · rw [link_ccw]; simp

theorem chain_link (nb : Half → Nbrs) (a b : Half) (L : List Half) (h : L.IsChain (Link nb))
    (ha : a ∉ L.dropLast) (hb : b ∉ L.tail) : L.IsChain (Link (link nb a b)) := by
  induction L with
  | nil => exact .nil
  | cons x L ih =>
    cases L with
    | nil => exact .singleton _
    | cons y L =>
      rw [List.isChain_cons_cons] at h ⊢
      have hxa : x ≠ a := by intro e; apply ha; simp [e]
      have hyb : y ≠ b := by intro e; apply hb; simp [e]
      refine ⟨⟨?_, ?_⟩, ih h.2 ?_ ?_⟩
      · rw [link_cw, if_neg hxa]; exact h.1.1
      · rw [link_ccw, if_neg hyb]; exact h.1.2
      · intro hc; apply ha; rw [List.dropLast_cons_of_ne_nil (by simp)]; exact List.mem_cons_of_mem _ hc
      · intro hc; apply hb; exact List.mem_of_mem_tail hc

theorem chain_congr (nb nb' : Half → Nbrs) (L : List Half) (h : L.IsChain (Link nb))
    (he : ∀ a ∈ L, nb' a = nb a) : L.IsChain (Link nb') := by
  induction L with
  | nil => exact .nil
  | cons x L ih =>
    cases L with
    | nil => exact .singleton _
    | cons y L =>
      rw [List.isChain_cons_cons] at h ⊢
      refine ⟨⟨?_, ?_⟩, ih h.2 (fun a ha => he a (List.mem_cons_of_mem _ ha))⟩
      · rw [he x (by simp)]; exact h.1.1
      · rw [he y (by simp)]; exact h.1.2

theorem Ring.congr {nb nb' : Half → Nbrs} {L : List Half} (h : Ring nb L) (he : ∀ a ∈ L, nb' a = nb a) :
    Ring nb' L := by
  refine ⟨h.1, chain_congr nb nb' _ h.2 ?_⟩
  intro a ha
  rw [List.mem_append] at ha
  rcases ha with ha | ha
  · exact he a ha
  · cases L with
    | nil => simp at ha
    | cons x L => simp at ha; exact he a (by simp [ha])

theorem Ring.chain {nb : Half → Nbrs} {L : List Half} (h : Ring nb L) : L.IsChain (Link nb) :=
  h.2.left_of_append

/-- Appending a link to a chain. -/
theorem chain_snoc (nb : Half → Nbrs) (L : List Half) (seg : Half) (h : L.IsChain (Link nb))
    (hnd : (L ++ [seg]).Nodup) (last : Half) (hl : L.getLast? = some last) :
    (L ++ [seg]).IsChain (Link (link nb last seg)) := by
  have hne : L ≠ [] := by rintro rfl; simp at hl
  have hnd2 := List.nodup_append.1 hnd
  have hsnot : seg ∉ L := fun hc => hnd2.2.2 seg hc seg (by simp) rfl
  have hlast : L = L.dropLast ++ [last] := by
    rw [List.getLast?_eq_some_getLast hne] at hl
    simp only [Option.some.injEq] at hl
    rw [← hl]; exact (List.dropLast_append_getLast hne).symm
  have hlnot : last ∉ L.dropLast := by
    intro hc
    have := hnd2.1
    rw [hlast] at this
    exact (List.nodup_append.1 this).2.2 last (by simpa using hc) last (by simp) rfl
  rw [List.isChain_append]
  refine ⟨chain_link nb last seg L h hlnot (fun hc => hsnot (List.mem_of_mem_tail hc)), .singleton _, ?_⟩
  intro x hx y hy
  rw [hl] at hx
  simp at hx hy
  subst hx; subst hy
  exact Link_link _ _ _

theorem chain_cons (nb : Half → Nbrs) (L : List Half) (seg : Half) (h : L.IsChain (Link nb))
    (hnd : (seg :: L).Nodup) (first : Half) (hf : L.head? = some first) :
    (seg :: L).IsChain (Link (link nb seg first)) := by
  cases L with
  | nil => simp at hf
  | cons x L =>
    simp at hf; subst hf
    rw [List.nodup_cons] at hnd
    rw [List.isChain_cons_cons]
    refine ⟨Link_link _ _ _, chain_link nb seg x _ h ?_ ?_⟩
    · intro hc; exact hnd.1 ((List.dropLast_sublist _).subset hc)
    · have := (List.nodup_cons.1 hnd.2).1
      simpa using this

/-- Closing a chain gives a ring. -/
theorem closeRing_spec (s : PointState K W) (L : List Half) (hf : s.first = L.head?) (hl : s.last = L.getLast?)
    (hnd : L.Nodup) (hc : L.IsChain (Link s.t.nb)) :
    Ring (closeRing s).t.nb L ∧ (closeRing s).first = L.head? ∧ (closeRing s).last = L.getLast? ∧
    (closeRing s).t = { s.t with nb := (closeRing s).t.nb } ∧
    ∀ h, h ∉ L → (closeRing s).t.nb h = s.t.nb h := by
  cases L with
  | nil =>
    have h1 : s.first = none := by simpa using hf
    have hc : closeRing s = s := by unfold closeRing; rw [h1]
    rw [hc]
    exact ⟨⟨List.nodup_nil, by simp⟩, hf, hl, rfl, fun _ _ => rfl⟩
  | cons x L =>
    have hf' : s.first = some x := by rw [hf]; rfl
    obtain ⟨z, hz⟩ : ∃ z, (x :: L).getLast? = some z := ⟨_, List.getLast?_eq_some_getLast (by simp)⟩
    have hl' : s.last = some z := by rw [hl, hz]
    have hcr : closeRing s = { s with t := { s.t with nb := link s.t.nb z x } } := by
      unfold closeRing; rw [hf', hl']
    rw [hcr]
    have hne : (x :: L) ≠ [] := by simp
    have hzm : z ∈ x :: L := by
      rw [List.getLast?_eq_some_getLast hne, Option.some.injEq] at hz
      rw [← hz]; exact List.getLast_mem hne
    have hdl : (x :: L).dropLast ++ [z] = x :: L := by
      rw [List.getLast?_eq_some_getLast hne, Option.some.injEq] at hz
      rw [← hz]; exact List.dropLast_append_getLast hne
    have hznot : z ∉ (x :: L).dropLast := by
      intro hc
      have := hnd
      rw [← hdl] at this
      exact (List.nodup_append.1 this).2.2 z hc z (by simp) rfl
    have hxnot : x ∉ (x :: L).tail := by simpa using (List.nodup_cons.1 hnd).1
    refine ⟨⟨hnd, ?_⟩, hf', by simpa using hl'.trans hz.symm, rfl, ?_⟩
    · rw [List.isChain_append]
      refine ⟨chain_link _ _ _ _ hc hznot hxnot, by simp, ?_⟩
      intro a ha b hb
      rw [hz] at ha
      simp at ha hb
      subst ha; subst hb
      exact Link_link _ _ _
    · intro h hh
      exact link_other _ _ _ _ (fun e => hh (e ▸ hzm)) (fun e => hh (e ▸ List.mem_cons_self ..))

/-- The change made by adding half-segments `segs` at point `p`: everything but `point_idx` of the new
half-segments and the links is untouched. -/
structure Added (p : Nat) (segs L' : List Half) (t t' : Topo K W) : Prop where
  eq : t' = { t with pointIdx := fun h => if h ∈ segs then some p else t.pointIdx h, nb := t'.nb }
  other : ∀ h, h ∉ L' → t'.nb h = t.nb h

theorem addCwLoop_spec (p : Nat) (segs : List Half) : ∀ (s : PointState K W) (L : List Half),
    s.first = L.head? → s.last = L.getLast? → (L ++ segs).Nodup → L.IsChain (Link s.t.nb) →
    (L ++ segs).IsChain (Link (addCwLoop p segs s).t.nb) ∧ (addCwLoop p segs s).first = (L ++ segs).head? ∧
    (addCwLoop p segs s).last = (L ++ segs).getLast? ∧ Added p segs (L ++ segs) s.t (addCwLoop p segs s).t := by
  induction segs with
  | nil =>
    intro s L h1 h2 h3 h4
    simp only [addCwLoop, List.append_nil]
    exact ⟨h4, h1, h2, ⟨by simp, fun _ _ => rfl⟩⟩
  | cons seg segs ih =>
    intro s L h1 h2 h3 h4
    have hnd : (L ++ [seg]).Nodup := by
      have : (L ++ [seg]).Sublist (L ++ seg :: segs) := by
        apply List.Sublist.append_left; simp
      exact this.nodup h3
    have h3' : (L ++ [seg] ++ segs).Nodup := by simpa using h3
    cases L with
    | nil =>
      have e1 : s.first = none := by simpa using h1
      have e2 : s.last = none := by simpa using h2
      have := ih ⟨{ s.t with pointIdx := set s.t.pointIdx seg (some p) }, some seg, some seg⟩ [seg] rfl rfl
        (by simpa using h3) (.singleton _)
      simp only [addCwLoop, e1, e2, List.nil_append]
      simp only [List.singleton_append] at this
      refine ⟨this.1, this.2.1, this.2.2.1, ?_, ?_⟩
      · rw [this.2.2.2.eq]
        simp only [List.mem_cons, set]
        congr 1
        funext h
        by_cases q1 : h ∈ segs <;> by_cases q2 : h = seg <;> simp [q1, q2]
      · intro h hh; exact this.2.2.2.other h hh
    | cons x L =>
      obtain ⟨z, hz⟩ : ∃ z, (x :: L).getLast? = some z := ⟨_, List.getLast?_eq_some_getLast (by simp)⟩
      have e1 : s.first = some x := by simpa using h1
      have e2 : s.last = some z := by rw [h2, hz]
      have hc := chain_snoc s.t.nb (x :: L) seg h4 hnd z hz
      have := ih ⟨{ s.t with pointIdx := set s.t.pointIdx seg (some p), nb := link s.t.nb z seg }, some x, some seg⟩
        (x :: L ++ [seg]) rfl (by rw [List.getLast?_append]; simp) h3' hc
      simp only [addCwLoop, e1, e2]
      have ha : x :: L ++ seg :: segs = x :: L ++ [seg] ++ segs := by simp
      rw [ha]
      refine ⟨this.1, this.2.1, this.2.2.1, ?_, ?_⟩
      · rw [this.2.2.2.eq]
        simp only [List.mem_cons, set]
        congr 1
        funext h
        by_cases q1 : h ∈ segs <;> by_cases q2 : h = seg <;> simp [q1, q2]
      · intro h hh
        rw [this.2.2.2.other h hh]
        have hzm : z ∈ x :: L := by
          rw [List.getLast?_eq_some_getLast (by simp), Option.some.injEq] at hz
          rw [← hz]; exact List.getLast_mem _
        have := link_other s.t.nb z seg h (fun e => hh (by subst e; simp only [List.mem_append]; exact .inl (.inl hzm)))
          (fun e => hh (by subst e; simp))
        exact this

theorem addCcwLoop_spec (p : Nat) (segs : List Half) : ∀ (s : PointState K W) (L : List Half),
    s.first = L.head? → s.last = L.getLast? → (segs.reverse ++ L).Nodup → L.IsChain (Link s.t.nb) →
    (segs.reverse ++ L).IsChain (Link (addCcwLoop p segs s).t.nb) ∧
    (addCcwLoop p segs s).first = (segs.reverse ++ L).head? ∧
    (addCcwLoop p segs s).last = (segs.reverse ++ L).getLast? ∧
    Added p segs (segs.reverse ++ L) s.t (addCcwLoop p segs s).t := by
  induction segs with
  | nil =>
    intro s L h1 h2 h3 h4
    simp only [addCcwLoop, List.reverse_nil, List.nil_append]
    exact ⟨h4, h1, h2, ⟨by simp, fun _ _ => rfl⟩⟩
  | cons seg segs ih =>
    intro s L h1 h2 h3 h4
    have h3' : (segs.reverse ++ (seg :: L)).Nodup := by simpa using h3
    have hnd : (seg :: L).Nodup := (List.nodup_append.1 h3').2.1
    have ha : (seg :: segs).reverse ++ L = segs.reverse ++ (seg :: L) := by simp
    rw [ha]
    cases L with
    | nil =>
      have e1 : s.first = none := by simpa using h1
      have e2 : s.last = none := by simpa using h2
      have := ih ⟨{ s.t with pointIdx := set s.t.pointIdx seg (some p) }, some seg, some seg⟩ [seg] rfl rfl
        h3' (.singleton _)
      simp only [addCcwLoop, e1, e2]
      refine ⟨this.1, this.2.1, this.2.2.1, ?_, ?_⟩
      · rw [this.2.2.2.eq]
        simp only [List.mem_cons, set]
        congr 1
        funext h
        by_cases q1 : h ∈ segs <;> by_cases q2 : h = seg <;> simp [q1, q2]
      · intro h hh; exact this.2.2.2.other h hh
    | cons x L =>
      obtain ⟨z, hz⟩ : ∃ z, (x :: L).getLast? = some z := ⟨_, List.getLast?_eq_some_getLast (by simp)⟩
      have e1 : s.first = some x := by simpa using h1
      have e2 : s.last = some z := by rw [h2, hz]
      have hc := chain_cons s.t.nb (x :: L) seg h4 hnd x rfl
      have := ih ⟨{ s.t with pointIdx := set s.t.pointIdx seg (some p), nb := link s.t.nb seg x }, some seg, some z⟩
        (seg :: x :: L) rfl (by rw [List.getLast?_cons_cons, hz]) h3' hc
      simp only [addCcwLoop, e1, e2]
      refine ⟨this.1, this.2.1, this.2.2.1, ?_, ?_⟩
      · rw [this.2.2.2.eq]
        simp only [List.mem_cons, set]
        congr 1
        funext h
        by_cases q1 : h ∈ segs <;> by_cases q2 : h = seg <;> simp [q1, q2]
      · intro h hh
        rw [this.2.2.2.other h hh]
        exact link_other s.t.nb seg x h (fun e => hh (by subst e; simp)) (fun e => hh (by subst e; simp))

theorem addCw_spec (p : Nat) (segs : List Half) (s : PointState K W) (L : List Half)
    (h1 : s.first = L.head?) (h2 : s.last = L.getLast?) (h3 : (L ++ segs).Nodup) (h4 : Ring s.t.nb L) :
    Ring (addCw p segs s).t.nb (L ++ segs) ∧ (addCw p segs s).first = (L ++ segs).head? ∧
    (addCw p segs s).last = (L ++ segs).getLast? ∧ Added p segs (L ++ segs) s.t (addCw p segs s).t := by
  obtain ⟨a1, a2, a3, a4⟩ := addCwLoop_spec p segs s L h1 h2 h3 h4.chain
  obtain ⟨b1, b2, b3, b4, b5⟩ := closeRing_spec _ (L ++ segs) a2 a3 h3 a1
  refine ⟨b1, b2, b3, ?_, ?_⟩
  · unfold addCw
    rw [b4]
    conv_lhs => rw [a4.eq]
  · intro h hh; unfold addCw; rw [b5 h hh, a4.other h hh]

theorem addCcw_spec (p : Nat) (segs : List Half) (s : PointState K W) (L : List Half)
    (h1 : s.first = L.head?) (h2 : s.last = L.getLast?) (h3 : (segs.reverse ++ L).Nodup) (h4 : Ring s.t.nb L) :
    Ring (addCcw p segs s).t.nb (segs.reverse ++ L) ∧ (addCcw p segs s).first = (segs.reverse ++ L).head? ∧
    (addCcw p segs s).last = (segs.reverse ++ L).getLast? ∧
    Added p segs (segs.reverse ++ L) s.t (addCcw p segs s).t := by
  obtain ⟨a1, a2, a3, a4⟩ := addCcwLoop_spec p segs s L h1 h2 h3 h4.chain
  obtain ⟨b1, b2, b3, b4, b5⟩ := closeRing_spec _ (segs.reverse ++ L) a2 a3 h3 a1
  refine ⟨b1, b2, b3, ?_, ?_⟩
  · unfold addCcw
    rw [b4]
    conv_lhs => rw [a4.eq]
  · intro h hh; unfold addCcw; rw [b5 h hh, a4.other h hh]

/-! ## Removing a half-segment -/

theorem Ring.rotate {nb : Half → Nbrs} {A B : List Half} (h : Ring nb (A ++ B)) : Ring nb (B ++ A) := by
  obtain ⟨h1, h2⟩ := h
  refine ⟨(List.perm_append_comm.nodup_iff).1 h1, ?_⟩
  cases A with
  | nil => simpa using h2
  | cons a A =>
    cases B with
    | nil => simpa using h2
    | cons b B =>
      simp only [List.cons_append, List.head?_cons, Option.toList_some] at h2 ⊢
      have e1 : a :: (A ++ b :: B ++ [a]) = (a :: A) ++ ((b :: B) ++ [a]) := by simp
      have e2 : b :: (B ++ a :: A ++ [b]) = ((b :: B) ++ a :: A) ++ [b] := by simp
      rw [e1] at h2
      rw [e2]
      obtain ⟨q1, q2, q3⟩ := List.isChain_append.1 h2
      rw [List.isChain_append]
      refine ⟨?_, .singleton _, ?_⟩
      · have : (b :: B) ++ a :: A = (b :: B) ++ (a :: A) := rfl
        rw [List.isChain_append]
        refine ⟨q2.left_of_append, q1, ?_⟩
        intro x hx y hy
        have := (List.isChain_append.1 q2).2.2 x hx y (by simpa using hy)
        exact this
      · intro x hx y hy
        refine q3 x ?_ y ?_
        · rw [List.getLast?_append] at hx
          cases hq : (a :: A).getLast? with
          | none => simp at hq
          | some z => rw [hq] at hx; simpa using hx
        · simpa using hy

theorem deleteHalf_head (t : Topo K W) (h : Half) (M : List Half) (hr : Ring t.nb (h :: M)) :
    Ring (t.deleteHalf h).nb M ∧ ∀ a, a ∉ h :: M → (t.deleteHalf h).nb a = t.nb a := by
  obtain ⟨h1, h2⟩ := hr
  have hcw : ∀ a, ((t.deleteHalf h).nb a).cw = if a = (t.nb h).ccw then (t.nb h).cw else (t.nb a).cw := by
    intro a
    unfold Topo.deleteHalf set
    by_cases q1 : a = (t.nb h).ccw <;> by_cases q2 : a = (t.nb h).cw <;> simp [q1, q2]
    simp_all
  have hccw : ∀ a, ((t.deleteHalf h).nb a).ccw = if a = (t.nb h).cw then (t.nb h).ccw else (t.nb a).ccw := by
    intro a
    unfold Topo.deleteHalf set
    dsimp only
    generalize (t.nb h).ccw = u
    generalize (t.nb h).cw = v
    by_cases q1 : a = u
    · subst q1
      by_cases q2 : a = v <;> simp [q2]
    · by_cases q2 : a = v
      · subst q2; simp [q1]
      · simp [q1, q2]
  cases M with
  | nil =>
    simp only [List.head?_cons, Option.toList_some, List.singleton_append, List.isChain_cons_cons] at h2
    obtain ⟨⟨e1, e2⟩, _⟩ := h2
    refine ⟨⟨List.nodup_nil, by simp⟩, ?_⟩
    intro a ha
    have ha : a ≠ h := by simpa using ha
    unfold Topo.deleteHalf set
    simp [e1, e2, ha]
  | cons m M =>
    have hne : (m :: M) ≠ [] := by simp
    obtain ⟨z, hz⟩ : ∃ z, (m :: M).getLast? = some z := ⟨_, List.getLast?_eq_some_getLast hne⟩
    simp only [List.head?_cons, Option.toList_some, List.cons_append] at h2
    rw [List.isChain_cons_cons] at h2
    obtain ⟨⟨e1, _⟩, h3⟩ := h2
    have e3 : h :: [] = [h] := rfl
    have h4 := List.isChain_append.1 (show ((m :: M) ++ [h]).IsChain (Link t.nb) from h3)
    have e4 := h4.2.2 z hz h rfl
    have hzm : z ∈ m :: M := by
      rw [List.getLast?_eq_some_getLast hne, Option.some.injEq] at hz
      rw [← hz]; exact List.getLast_mem hne
    have hnd := (List.nodup_cons.1 h1)
    have hdl : (m :: M).dropLast ++ [z] = m :: M := by
      rw [List.getLast?_eq_some_getLast hne, Option.some.injEq] at hz
      rw [← hz]; exact List.dropLast_append_getLast hne
    have hznot : z ∉ (m :: M).dropLast := by
      intro hc
      have := hnd.2
      rw [← hdl] at this
      exact (List.nodup_append.1 this).2.2 z hc z (by simp) rfl
    have hmnot : m ∉ (m :: M).tail := by simpa using (List.nodup_cons.1 hnd.2).1
    rw [e1, e4.2] at hcw hccw
    have hnb : (t.deleteHalf h).nb = link t.nb z m := by
      funext a
      have q1 := hcw a
      have q2 := hccw a
      rw [← link_cw t.nb z m a] at q1
      rw [← link_ccw t.nb z m a] at q2
      cases hq : (t.deleteHalf h).nb a
      cases hq' : link t.nb z m a
      rw [hq] at q1 q2; rw [hq'] at q1 q2
      simp only at q1 q2
      rw [q1, q2]
    rw [hnb]
    refine ⟨⟨hnd.2, ?_⟩, ?_⟩
    · rw [List.isChain_append]
      refine ⟨chain_link _ _ _ _ h4.1 hznot hmnot, by simp, ?_⟩
      intro a ha b hb
      rw [hz] at ha
      simp at ha hb
      subst ha; subst hb
      exact Link_link _ _ _
    · intro a ha
      exact link_other _ _ _ _ (fun e => ha (by subst e; exact List.mem_cons_of_mem _ hzm)) (fun e => ha (by subst e; simp))

theorem deleteHalf_spec (t : Topo K W) (h : Half) (L : List Half) (hr : Ring t.nb L) (hm : h ∈ L) :
    Ring (t.deleteHalf h).nb (L.erase h) ∧ (∀ a, a ∉ L → (t.deleteHalf h).nb a = t.nb a) ∧
    t.deleteHalf h = { t with nb := (t.deleteHalf h).nb } := by
  obtain ⟨A, B, rfl⟩ := List.append_of_mem hm
  have h1 : Ring t.nb ((h :: B) ++ A) := hr.rotate
  obtain ⟨g1, g2⟩ := deleteHalf_head t h (B ++ A) h1
  have hA : h ∉ A := by
    intro hc
    exact (List.nodup_append.1 hr.1).2.2 h hc h (by simp) rfl
  refine ⟨?_, ?_, rfl⟩
  · rw [List.erase_append_right _ hA, List.erase_cons_head]
    exact g1.rotate
  · intro a ha
    apply g2
    intro hc; apply ha
    simp only [List.mem_cons, List.mem_append] at hc ⊢
    rcases hc with hc | hc | hc
    · exact .inr (.inl hc)
    · exact .inr (.inr hc)
    · exact .inl hc

end Verif.Topo
