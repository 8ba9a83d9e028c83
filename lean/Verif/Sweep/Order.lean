import Verif.Sweep.Sound

/-!
# Why two segments of the line cannot be in the wrong order unnoticed

`CI` is the invariant of the sweep: whenever a segment `a` of the line will be far to the right of a segment `b` that comes after it, there is
something between them (inclusively) that will happen before: a segment ends, or an event of two of these segments is queued.
-/

namespace Verif.Sweep
open Verif.Curve Verif.Range Verif.Topo
set_option linter.unusedSectionVars false

variable {K P : Type} [LinearOrder K] [LinearOrder P] [AddCommGroup P] [IsOrderedAddMonoid P] {px : Nat → K → P}
variable {E : Env K} {m : P} {y t : K} {Q Q' : List (IEvent K)} {pend pend' : Nat → Prop}

/-- The event concerns two segments of `X` that go on, and it is not later than `t`. If the two segments are in the order in which the event
wants them, then one of them is also to the wrong side of another segment of `X`. -/
def EvWit (E : Env K) (px : Nat → K → P) (m : P) (y t : K) (ev : IEvent K) (X : List Nat) : Prop :=
  ev.y ≤ t ∧ y < E.endY ev.left ∧ y < E.endY ev.right ∧
    ([ev.left, ev.right].Sublist X ∨ ([ev.right, ev.left].Sublist X ∧
      ((∃ b, [ev.right, b].Sublist X ∧ t ≤ E.endY ev.right ∧ t ≤ E.endY b ∧ Viol px m t ev.right b) ∨
        ∃ a, [a, ev.left].Sublist X ∧ t ≤ E.endY a ∧ t ≤ E.endY ev.left ∧ Viol px m t a ev.left)))

/-- Something will happen to the segments `X` before the height `t`. -/
def Wit (E : Env K) (px : Nat → K → P) (m : P) (y t : K) (Q : List (IEvent K)) (pend : Nat → Prop) (X : List Nat) : Prop :=
  (∃ k ∈ X, pend k) ∨ (∃ k ∈ X, y < E.endY k ∧ E.endY k ≤ t) ∨ ∃ ev ∈ Q, EvWit E px m y t ev X

theorem EvWit.mono {ev : IEvent K} {X X' : List Nat} (h : EvWit E px m y t ev X) (hX : X.Sublist X') : EvWit E px m y t ev X' := by
  obtain ⟨h1, h2, h3, h4⟩ := h
  refine ⟨h1, h2, h3, ?_⟩
  rcases h4 with h4 | ⟨h4, ⟨b, h5, h6⟩ | ⟨a, h5, h6⟩⟩
  · exact .inl (h4.trans hX)
  · exact .inr ⟨h4.trans hX, .inl ⟨b, h5.trans hX, h6⟩⟩
  · exact .inr ⟨h4.trans hX, .inr ⟨a, h5.trans hX, h6⟩⟩

theorem Wit.mono {X X' : List Nat} (h : Wit E px m y t Q pend X) (hX : X.Sublist X') (hQ : ∀ e ∈ Q, e ∈ Q') (hp : ∀ k ∈ X, pend k → pend' k) :
    Wit E px m y t Q' pend' X' := by
  rcases h with ⟨k, h1, h2⟩ | ⟨k, h1, h2⟩ | ⟨ev, h1, h2⟩
  · exact .inl ⟨k, hX.subset h1, hp k h1 h2⟩
  · exact .inr (.inl ⟨k, hX.subset h1, h2⟩)
  · exact .inr (.inr ⟨ev, hQ ev h1, h2.mono hX⟩)

/-- The invariant for one contiguous piece of the line. -/
def Ok (E : Env K) (px : Nat → K → P) (m : P) (y : K) (Q : List (IEvent K)) (pend : Nat → Prop) (X : List Nat) : Prop :=
  ∀ a M b, X = a :: (M ++ [b]) → ∀ t, y < t → t ≤ E.endY a → t ≤ E.endY b → Viol px (m + m) t a b → Wit E px m y t Q pend X

/-- The invariant for all the contiguous pieces of the line `L` that satisfy `p`. -/
def CIp (E : Env K) (px : Nat → K → P) (m : P) (y : K) (Q : List (IEvent K)) (pend : Nat → Prop) (p : List Nat → Prop) (L : List Nat) : Prop :=
  ∀ X, X <:+: L → p X → Ok E px m y Q pend X

/-- The invariant for all the contiguous pieces of the line. -/
def Crossings (E : Env K) (px : Nat → K → P) (m : P) (y : K) (Q : List (IEvent K)) (pend : Nat → Prop) (L : List Nat) : Prop :=
  ∀ X, X <:+: L → Ok E px m y Q pend X

theorem CIp.full {p : List Nat → Prop} {L : List Nat} (h : CIp E px m y Q pend p L) (hp : ∀ X, X <:+: L → p X) : Crossings E px m y Q pend L :=
  fun X hX => h X hX (hp X hX)

theorem Ok.mono {X : List Nat} (h : Ok E px m y Q pend X) (hQ : ∀ e ∈ Q, e ∈ Q') (hp : ∀ k ∈ X, pend k → pend' k) : Ok E px m y Q' pend' X :=
  fun a M b e t h1 h2 h3 h4 => (h a M b e t h1 h2 h3 h4).mono (List.Sublist.refl _) hQ hp

theorem Crossings.mono {L : List Nat} (h : Crossings E px m y Q pend L) (hQ : ∀ e ∈ Q, e ∈ Q') (hp : ∀ k ∈ L, pend k → pend' k) :
    Crossings E px m y Q' pend' L :=
  fun X hX => (h X hX).mono hQ fun k hk => hp k (hX.subset hk)

theorem CIp.mono {p : List Nat → Prop} {L : List Nat} (h : CIp E px m y Q pend p L) (hQ : ∀ e ∈ Q, e ∈ Q') : CIp E px m y Q' pend p L :=
  fun X hX hp => (h X hX hp).mono hQ fun _ _ h => h

theorem Crossings.infix {L L' : List Nat} (h : Crossings E px m y Q pend L) (hL : L' <:+: L) : Crossings E px m y Q pend L' :=
  fun X hX => h X (hX.trans hL)

theorem CIp.infix {p : List Nat → Prop} {L L' : List Nat} (h : CIp E px m y Q pend p L) (hL : L' <:+: L) : CIp E px m y Q pend p L' :=
  fun X hX => h X (hX.trans hL)

theorem infix_left (A : List Nat) (l : Nat) (B : List Nat) : A <:+: A ++ l :: B := ⟨[], l :: B, by simp⟩
theorem infix_right (A : List Nat) (l : Nat) (B : List Nat) : B <:+: A ++ l :: B := ⟨A ++ [l], [], by simp⟩

theorem last_eq {P R : List Nat} {z b : Nat} (h : P ++ [z] = R ++ [b]) : z = b := by
  simpa using (List.append_inj' h rfl).2

theorem infix_cases {X A B : List Nat} {l : Nat} (h : X <:+: A ++ l :: B) :
    X <:+: A ∨ X <:+: B ∨ ∃ X1 X2 A' B', X = X1 ++ l :: X2 ∧ A = A' ++ X1 ∧ B = X2 ++ B' := by
  obtain ⟨S, T, h⟩ := h
  rw [List.append_assoc, List.append_eq_append_iff] at h
  rcases h with ⟨C, h1, h2⟩ | ⟨C, h1, h2⟩
  · rw [List.append_eq_append_iff] at h2
    rcases h2 with ⟨D, h3, h4⟩ | ⟨D, h3, h4⟩
    · exact .inl ⟨S, D, by rw [h1, h3, List.append_assoc]⟩
    · cases D with
      | nil => exact .inl ⟨S, [], by rw [h1, h3]; simp⟩
      | cons d D =>
        rw [List.cons_append, List.cons.injEq] at h4
        refine .inr (.inr ⟨C, D, S, T, by rw [h3, h4.1], h1, h4.2⟩)
  · cases C with
    | nil =>
      rw [List.nil_append] at h2
      cases X with
      | nil => exact .inl ⟨[], A, rfl⟩
      | cons x X =>
        rw [List.cons_append, List.cons.injEq] at h2
        exact .inr (.inr ⟨[], X, A, T, by rw [← h2.1]; rfl, by simp, h2.2⟩)
    | cons c C =>
      rw [List.cons_append, List.cons.injEq] at h2
      exact .inr (.inl ⟨C, T, by rw [h2.2, List.append_assoc]⟩)

/-! ## A scan from `l` to the right over `B` and to the left over `A` has been made -/

def ScanR (E : Env K) (px : Nat → K → P) (m : P) (y : K) (Q : List (IEvent K)) (l : Nat) (B : List Nat) : Prop :=
  ∀ t X b B', B = X ++ b :: B' → y < t → t ≤ E.endY l → t ≤ E.endY b → Viol px m t l b →
    Explained E m y t Q (fun k => px l t + m ≤ px k t) l X b

def ScanL (E : Env K) (px : Nat → K → P) (m : P) (y : K) (Q : List (IEvent K)) (l : Nat) (A : List Nat) : Prop :=
  ∀ t A' a X, A = A' ++ a :: X → y < t → t ≤ E.endY a → t ≤ E.endY l → Viol px m t a l →
    Explained E m y t Q (fun k => px k t + m ≤ px l t) l X a

theorem Explained.monoQ {far : Nat → Prop} {l : Nat} {X : List Nat} {b : Nat} (h : Explained E m y t Q far l X b) (hQ : ∀ e ∈ Q, e ∈ Q') :
    Explained E m y t Q' far l X b := by
  rcases h with h | ⟨o, h1, h2, ev, h3, h4⟩ | h
  · exact .inl h
  · exact .inr (.inl ⟨o, h1, h2, ev, hQ ev h3, h4⟩)
  · exact .inr (.inr h)

theorem ScanR.mono {l : Nat} {B : List Nat} (h : ScanR E px m y Q l B) (hQ : ∀ e ∈ Q, e ∈ Q') : ScanR E px m y Q' l B :=
  fun t X b B' e h1 h2 h3 h4 => (h t X b B' e h1 h2 h3 h4).monoQ hQ

theorem ScanL.mono {l : Nat} {A : List Nat} (h : ScanL E px m y Q l A) (hQ : ∀ e ∈ Q, e ∈ Q') : ScanL E px m y Q' l A :=
  fun t X b B' e h1 h2 h3 h4 => (h t X b B' e h1 h2 h3 h4).monoQ hQ

theorem viol_of_add (hm : 0 ≤ m) {a b : Nat} (h : Viol px (m + m) t a b) : Viol px m t a b := by
  unfold Viol at *
  refine lt_of_le_of_lt ?_ h
  have : m ≤ m + m := le_add_of_nonneg_right hm
  exact add_le_add (le_refl _) this

theorem viol_far_right {l k b : Nat} (h : Viol px m t l b) (hf : px l t + m ≤ px k t) : Viol px (m + m) t k b := by
  unfold Viol at *
  rw [← add_assoc]
  exact lt_of_lt_of_le (add_lt_add_of_lt_of_le h (le_refl m)) hf

theorem viol_far_left {l k a : Nat} (h : Viol px m t a l) (hf : px k t + m ≤ px l t) : Viol px (m + m) t a k := by
  unfold Viol at *
  rw [← add_assoc]
  exact lt_of_le_of_lt (add_le_add hf (le_refl m)) h

theorem viol_split {a l b : Nat} (h : Viol px (m + m) t a b) : Viol px m t a l ∨ Viol px m t l b := by
  unfold Viol at *
  rcases lt_or_ge (px l t + m) (px a t) with h1 | h1
  · exact .inl h1
  · right
    rw [← add_assoc] at h
    exact lt_of_add_lt_add_right (lt_of_lt_of_le h h1)

theorem two_sublist {l o : Nat} {X : List Nat} (h : o ∈ X) : [l, o].Sublist (l :: X) := (List.singleton_sublist.2 h).cons_cons l
theorem two_sublist' {l o : Nat} {X : List Nat} (h : o ∈ X) : [o, l].Sublist (X ++ [l]) :=
  List.Sublist.append (l₁ := [o]) (r₁ := [l]) (List.singleton_sublist.2 h) (List.Sublist.refl _)

/-- If `l` is on the wrong side of `b`, the scan from `l` to the right has found something. -/
theorem wit_right {l b : Nat} {B X B' : List Nat} (hR : ScanR E px m y Q l B) (hB : B = X ++ b :: B') (hy : y < t) (h1 : t ≤ E.endY l)
    (h2 : t ≤ E.endY b) (hv : Viol px m t l b)
    (hk : ∀ X1 k X2, X = X1 ++ k :: X2 → t ≤ E.endY k → Viol px (m + m) t k b → Wit E px m y t Q pend (k :: (X2 ++ [b]))) :
    Wit E px m y t Q pend (l :: (X ++ [b])) := by
  rcases hR t X b B' hB hy h1 h2 hv with ⟨o, h3, h4⟩ | ⟨o, h3, h4, ev, h5, h6, h7⟩ | ⟨X1, k, X2, h3, h4, h5⟩
  · exact .inr (.inl ⟨o, List.mem_cons_of_mem _ h3, h4⟩)
  · refine .inr (.inr ⟨ev, h5, h6, ?_⟩)
    rcases h7 with ⟨rfl, rfl⟩ | ⟨rfl, rfl⟩
    · exact ⟨lt_of_lt_of_le hy h1, h4, .inl (two_sublist h3)⟩
    · refine ⟨h4, lt_of_lt_of_le hy h1, .inr ⟨two_sublist h3, .inl ⟨b, two_sublist (by simp), h1, h2, hv⟩⟩⟩
  · refine (hk X1 k X2 h3 h4 (viol_far_right hv h5)).mono ?_ (fun _ h => h) fun _ _ h => h
    rw [h3]
    refine List.Sublist.cons _ ?_
    rw [List.append_assoc, List.cons_append]
    exact List.sublist_append_right _ _

theorem wit_left {l a : Nat} {A X A' : List Nat} (hL : ScanL E px m y Q l A) (hA : A = A' ++ a :: X) (hy : y < t) (h1 : t ≤ E.endY a)
    (h2 : t ≤ E.endY l) (hv : Viol px m t a l)
    (hk : ∀ X1 k X2, X = X1 ++ k :: X2 → t ≤ E.endY k → Viol px (m + m) t a k → Wit E px m y t Q pend (a :: (X1 ++ [k]))) :
    Wit E px m y t Q pend (a :: (X ++ [l])) := by
  have hmem : ∀ o, o ∈ X ++ [a] → o ∈ a :: X := by
    intro o h
    rw [List.mem_append, List.mem_singleton] at h
    exact List.mem_cons.2 h.symm
  have hX : a :: (X ++ [l]) = (a :: X) ++ [l] := rfl
  rcases hL t A' a X hA hy h1 h2 hv with ⟨o, h3, h4⟩ | ⟨o, h3, h4, ev, h5, h6, h7⟩ | ⟨X1, k, X2, h3, h4, h5⟩
  · exact .inr (.inl ⟨o, by rw [hX]; exact List.mem_append_left _ (hmem o h3), h4⟩)
  · refine .inr (.inr ⟨ev, h5, h6, ?_⟩)
    rw [hX]
    rcases h7 with ⟨rfl, rfl⟩ | ⟨rfl, rfl⟩
    · refine ⟨lt_of_lt_of_le hy h2, h4, .inr ⟨two_sublist' (hmem _ h3), .inr ⟨a, two_sublist' (by simp), h1, h2, hv⟩⟩⟩
    · exact ⟨h4, lt_of_lt_of_le hy h2, .inl (two_sublist' (hmem _ h3))⟩
  · refine (hk X1 k X2 h3 h4 (viol_far_left hv h5)).mono ?_ (fun _ h => h) fun _ _ h => h
    rw [h3]
    refine List.Sublist.cons_cons _ ?_
    rw [List.append_assoc, List.cons_append]
    refine List.Sublist.append (List.Sublist.refl _) (List.Sublist.cons_cons _ ?_)
    exact List.nil_sublist _

/-- A scan from `l` in both directions makes the invariant true for the whole line, if it is true for the two sides. -/
theorem pivot (hm : 0 ≤ m) {A B : List Nat} {l : Nat} (hl : y < E.endY l) (hR : ScanR E px m y Q l B) (hL : ScanL E px m y Q l A)
    (hA : Crossings E px m y Q pend A) (hB : Crossings E px m y Q pend B) : Crossings E px m y Q pend (A ++ l :: B) := by
  intro X hX
  rcases infix_cases hX with h | h | ⟨X1, X2, A', B', e1, e2, e3⟩
  · exact hA X h
  · exact hB X h
  intro a M b e t hy h1 h2 hv
  -- the two one-sided facts
  have right : ∀ Y, X2 = Y ++ [b] → t ≤ E.endY l → Viol px m t l b → Wit E px m y t Q pend (l :: X2) := by
    intro Y hY hlt hv'
    rw [hY]
    refine wit_right (B := B) hR (B' := B') (by rw [e3, hY]; simp) hy hlt h2 hv' ?_
    intro Y1 k Y2 hY1 hk hvk
    refine hB _ ⟨Y1, B', ?_⟩ k Y2 b rfl t hy hk h2 hvk
    rw [e3, hY, hY1]; simp
  have left : ∀ Y, X1 = a :: Y → t ≤ E.endY l → Viol px m t a l → Wit E px m y t Q pend (X1 ++ [l]) := by
    intro Y hY hlt hv'
    rw [hY, List.cons_append]
    refine wit_left (A := A) hL (A' := A') (by rw [e2, hY]) hy h1 hlt hv' ?_
    intro Y1 k Y2 hY1 hk hvk
    refine hA _ ⟨A', Y2, ?_⟩ a Y1 k rfl t hy h1 hk hvk
    rw [e2, hY, hY1]; simp
  have subR : (l :: X2).Sublist X := by rw [e1]; exact List.sublist_append_right _ _
  have subL : (X1 ++ [l]).Sublist X := by
    rw [e1]
    exact List.Sublist.append (List.Sublist.refl _) (List.Sublist.cons_cons _ (List.nil_sublist _))
  rw [e1] at e
  cases X1 with
  | nil =>
    rw [List.nil_append, List.cons.injEq] at e
    obtain ⟨e4, e5⟩ := e
    subst e4
    exact (right M e5 h1 (viol_of_add hm hv)).mono subR (fun _ h => h) fun _ _ h => h
  | cons x X1 =>
    rw [List.cons_append, List.cons.injEq] at e
    obtain ⟨e4, e5⟩ := e
    subst e4
    rcases List.eq_nil_or_concat X2 with hX2 | ⟨Y, z, hX2⟩
    · subst hX2
      have : b = l := by
        have := congrArg List.getLast? e5
        simpa using this.symm
      subst this
      exact (left X1 rfl h2 (viol_of_add hm hv)).mono subL (fun _ h => h) fun _ _ h => h
    · rw [List.concat_eq_append] at hX2
      have hz : z = b := last_eq (P := X1 ++ l :: Y) (by rw [← e5, hX2]; simp)
      subst hz
      rcases lt_or_ge (E.endY l) t with hlt | hge
      · exact .inr (.inl ⟨l, by rw [e1]; simp, hl, hlt.le⟩)
      · rcases viol_split (l := l) hv with h | h
        · exact (left X1 rfl hge h).mono subL (fun _ h => h) fun _ _ h => h
        · exact (right Y hX2 hge h).mono subR (fun _ h => h) fun _ _ h => h

/-! ## Segments that end at this height -/

theorem two_sublist_drop {p q s : Nat} {X1 X2 : List Nat} (hp : p ≠ s) (hq : q ≠ s) (h : [p, q].Sublist (X1 ++ s :: X2)) :
    [p, q].Sublist (X1 ++ X2) := by
  have := h.filter fun x => decide (x ≠ s)
  rw [List.filter_append, List.filter_cons_of_neg (a := s) (by simp), ← List.filter_append, List.filter_cons_of_pos (a := p) (by simpa using hp),
    List.filter_cons_of_pos (a := q) (by simpa using hq), List.filter_nil] at this
  exact this.trans List.filter_sublist

theorem Wit.drop {s : Nat} (hs : E.endY s = y) (hps : ¬ pend s) (hy : y < t) {X1 X2 : List Nat} (h : Wit E px m y t Q pend (X1 ++ s :: X2)) :
    Wit E px m y t Q pend (X1 ++ X2) := by
  have hne : ∀ k, y < E.endY k → k ≠ s := fun k h1 h2 => by rw [h2, hs] at h1; exact lt_irrefl _ h1
  have hmem : ∀ k ∈ X1 ++ s :: X2, k ≠ s → k ∈ X1 ++ X2 := by
    intro k h1 h2
    simp only [List.mem_append, List.mem_cons] at h1 ⊢
    tauto
  rcases h with ⟨k, h1, h2⟩ | ⟨k, h1, h2⟩ | ⟨ev, h1, h2, h3, h4, h5⟩
  · exact .inl ⟨k, hmem k h1 fun h => hps (h ▸ h2), h2⟩
  · exact .inr (.inl ⟨k, hmem k h1 (hne k h2.1), h2⟩)
  · refine .inr (.inr ⟨ev, h1, h2, h3, h4, ?_⟩)
    have hl := hne _ h3
    have hr := hne _ h4
    rcases h5 with h5 | ⟨h5, ⟨b, h6, h7⟩ | ⟨a, h6, h7⟩⟩
    · exact .inl (two_sublist_drop hl hr h5)
    · exact .inr ⟨two_sublist_drop hr hl h5, .inl ⟨b, two_sublist_drop hr (hne b (lt_of_lt_of_le hy h7.2.1)) h6, h7⟩⟩
    · exact .inr ⟨two_sublist_drop hr hl h5, .inr ⟨a, two_sublist_drop (hne a (lt_of_lt_of_le hy h7.1)) hl h6, h7⟩⟩

/-- Inserting a segment that ends at this height. -/
theorem Crossings.insert_dead {A B : List Nat} {s : Nat} (hs : E.endY s = y) (h : Crossings E px m y Q pend (A ++ B)) :
    Crossings E px m y Q pend (A ++ s :: B) := by
  intro X hX
  rcases infix_cases hX with h1 | h1 | ⟨X1, X2, A', B', e1, e2, e3⟩
  · exact h X (h1.trans ⟨[], B, by simp⟩)
  · exact h X (h1.trans ⟨A, [], by simp⟩)
  intro a M b e t hy h1 h2 hv
  have ha : a ≠ s := by rintro rfl; rw [hs] at h1; exact absurd hy (not_lt.2 h1)
  have hb : b ≠ s := by rintro rfl; rw [hs] at h2; exact absurd hy (not_lt.2 h2)
  have hok := h (X1 ++ X2) ⟨A', B', by rw [e2, e3]; simp⟩
  have hsub : (X1 ++ X2).Sublist X := by rw [e1]; exact List.Sublist.append (List.Sublist.refl _) (List.sublist_cons_self _ _)
  have hshape : ∃ M', X1 ++ X2 = a :: (M' ++ [b]) := by
    rw [e1] at e
    cases X1 with
    | nil => rw [List.nil_append, List.cons.injEq] at e; exact absurd e.1.symm ha
    | cons x X1 =>
      rw [List.cons_append, List.cons.injEq] at e
      obtain ⟨e4, e5⟩ := e
      rcases List.eq_nil_or_concat X2 with hX2 | ⟨Y, z, hX2⟩
      · subst hX2
        have := congrArg List.getLast? e5
        exact absurd (by simpa using this.symm) hb
      · rw [List.concat_eq_append] at hX2
        have hz : z = b := last_eq (P := X1 ++ s :: Y) (by rw [← e5, hX2]; simp)
        exact ⟨X1 ++ Y, by rw [hX2, e4, hz]; simp⟩
  obtain ⟨M', hM'⟩ := hshape
  exact (hok a M' b hM' t hy h1 h2 hv).mono hsub (fun _ h => h) fun _ _ h => h

/-- Removing a segment that ends at this height. -/
theorem Crossings.remove_dead {A B : List Nat} {s : Nat} (hs : E.endY s = y) (hps : ¬ pend s) (h : Crossings E px m y Q pend (A ++ s :: B)) :
    Crossings E px m y Q pend (A ++ B) := by
  intro X hX
  obtain ⟨S, T, hX⟩ := hX
  have hS := hX
  rw [List.append_assoc, List.append_eq_append_iff] at hS
  rcases hS with ⟨C, h1, h2⟩ | ⟨C, h1, h2⟩
  · rw [List.append_eq_append_iff] at h2
    rcases h2 with ⟨D, h3, h4⟩ | ⟨D, h3, h4⟩
    · refine h X ⟨S, D ++ s :: B, ?_⟩
      rw [h1, h3]; simp
    · -- the piece contains the place
      intro a M b e t hy h5 h6 hv
      rcases List.eq_nil_or_concat D with hD | ⟨D', z, hD⟩
      · refine (h X ⟨S, s :: B, ?_⟩) a M b e t hy h5 h6 hv
        rw [h1, h3, hD]; simp
      rw [List.concat_eq_append] at hD
      cases C with
      | nil =>
        refine (h X ⟨A ++ [s], T, ?_⟩) a M b e t hy h5 h6 hv
        rw [h3, h4]; simp
      | cons c C =>
        have hok := h ((c :: C) ++ s :: D) ⟨S, T, by rw [h1, h4]; simp⟩
        have h7 : a = c := by rw [h3] at e; simp only [List.cons_append, List.cons.injEq] at e; exact e.1.symm
        have h8 : z = b := by
          rw [h3, hD] at e
          exact last_eq (P := c :: (C ++ D')) (R := a :: M) (by simpa using e)
        subst h7 h8
        have := hok a (C ++ s :: D') z (by rw [hD]; simp) t hy h5 h6 hv
        rw [h3]
        exact this.drop hs hps hy
  · refine h X ⟨A ++ s :: C, T, ?_⟩
    rw [h2]; simp

theorem Crossings.filter_dead (hps : ∀ k, E.endY k = y → ¬ pend k) (B : List Nat) : ∀ A, (∀ k ∈ B, y ≤ E.endY k) → Crossings E px m y Q pend (A ++ B) →
    Crossings E px m y Q pend (A ++ B.filter fun k => decide (y < E.endY k)) := by
  induction B with
  | nil => intro A _ h; simpa using h
  | cons x B ih =>
    intro A hB h
    by_cases hx : y < E.endY x
    · rw [List.filter_cons_of_pos (by simpa using hx)]
      have := ih (A ++ [x]) (fun k hk => hB k (List.mem_cons_of_mem _ hk)) (by simpa using h)
      simpa using this
    · rw [List.filter_cons_of_neg (by simpa using hx)]
      have hxy : E.endY x = y := le_antisymm (not_lt.1 hx) (hB x (by simp))
      exact ih A (fun k hk => hB k (List.mem_cons_of_mem _ hk)) (h.remove_dead hxy (hps x hxy))

/-- Going on to the next height `N`. -/
theorem Crossings.lower {L : List Nat} {N : K} (hN : y ≤ N) (hL : ∀ k ∈ L, N ≤ E.endY k) (h : Crossings E px m y Q (fun _ => False) L) :
    Crossings E px m N Q (fun k => E.endY k = N) L := by
  intro X hX a M b e t hy h1 h2 hv
  have hend : ∀ k ∈ X, E.endY k = N ∨ N < E.endY k := fun k hk => (hL k (hX.subset hk)).eq_or_lt.imp Eq.symm id
  rcases h X hX a M b e t (lt_of_le_of_lt hN hy) h1 h2 hv with ⟨k, _, h4⟩ | ⟨k, h3, h4⟩ | ⟨ev, h3, h4, h5, h6, h7⟩
  · exact h4.elim
  · rcases hend k h3 with h5 | h5
    · exact .inl ⟨k, h3, h5⟩
    · exact .inr (.inl ⟨k, h3, h5, h4.2⟩)
  · have hmem : ev.left ∈ X ∧ ev.right ∈ X := by
      rcases h7 with h7 | ⟨h7, _⟩
      · exact ⟨h7.subset (by simp), h7.subset (by simp)⟩
      · exact ⟨h7.subset (by simp), h7.subset (by simp)⟩
    rcases hend _ hmem.1 with h8 | h8
    · exact .inl ⟨_, hmem.1, h8⟩
    rcases hend _ hmem.2 with h9 | h9
    · exact .inl ⟨_, hmem.2, h9⟩
    exact .inr (.inr ⟨ev, h3, h4, h8, h9, h7⟩)

end Verif.Sweep
