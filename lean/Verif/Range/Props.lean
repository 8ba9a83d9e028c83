import Mathlib.Tactic.Tauto
import Verif.Range.Lemmas

/-! C37: enumerating the positions of one range of a sweep line. -/

namespace Verif.Range
set_option linter.unusedSectionVars false

variable {K : Type} [LinearOrder K]

/-! ## Specification -/

/-- The piece of `e` between the positions `a < b`, in the direction of `e`; it is connected to what is
above (below) only if it contains the end of `e` that is. -/
def pieceOf (e : OutputEvent K) (a b : K) : OutputEvent K :=
  if e.x0 < e.x1 then
    { e with x0 := a, x1 := b, connectedAbove := decide (a = e.x0) && e.connectedAbove
             connectedBelow := decide (b = e.x1) && e.connectedBelow }
  else
    { e with x0 := b, x1 := a, connectedAbove := decide (b = e.x0) && e.connectedAbove
             connectedBelow := decide (a = e.x1) && e.connectedBelow }

/-- `ps` are consecutive pieces of `e` covering `[a, b]` from left to right. -/
def Tiling (e : OutputEvent K) (a b : K) : List (OutputEvent K) → Prop
  | [] => a = b
  | p :: ps => ∃ c, a < c ∧ c ≤ b ∧ p = pieceOf e a c ∧ Tiling e c b ps

/-- Batch number `k` consists of pieces between position `k - 1` and position `k` and of points at
position `k`; positions increase strictly. -/
def Batched : Option K → List K → List (List (OutputEvent K)) → Prop
  | _, [], [] => True
  | last, x :: xs, b :: bs =>
    (∀ l, last = some l → l < x) ∧
    (∀ p ∈ b, p.largerX = x ∧ (p.smallerX = x ∨ last = some p.smallerX)) ∧ Batched (some x) xs bs
  | _, _, _ => False

/-! ## Proofs -/

theorem pointEvents_eq (x : K) (evs : List (OutputEvent K)) :
    pointEvents x evs = (evs.takeWhile fun e => !decide (x < e.smallerX)).filter fun e => decide (e.x0 = e.x1) := by
  induction evs with
  | nil => rfl
  | cons e evs ih =>
    simp only [pointEvents]
    by_cases h : x < e.smallerX
    · simp [h]
    · by_cases h2 : e.x0 = e.x1 <;> simp [h, h2, ih]

theorem filter_nodup {α : Type} (f : α → Nat) (l : List α) (h : (l.map f).Nodup) (e : α) (he : e ∈ l) :
    (l.filter fun a => decide (f a = f e)) = [e] := by
  induction l with
  | nil => simp at he
  | cons a l ih =>
    rw [List.map_cons, List.nodup_cons] at h
    rw [List.mem_cons] at he
    rcases he with rfl | he
    · rw [List.filter_cons_of_pos (by simp)]
      congr 1
      rw [List.filter_eq_nil_iff]
      intro b hb; simp only [decide_eq_true_eq]
      intro hc; exact h.1 (hc ▸ List.mem_map_of_mem hb)
    · have hne : f a ≠ f e := fun hc => h.1 (hc ▸ List.mem_map_of_mem he)
      rw [List.filter_cons_of_neg (by simpa using hne)]
      exact ih h.2 he

theorem inj_of_nodup {α : Type} (f : α → Nat) (l : List α) (h : (l.map f).Nodup) {a b : α} (ha : a ∈ l)
    (hb : b ∈ l) (hab : f a = f b) : a = b := by
  have h1 := filter_nodup f l h b hb
  have : a ∈ l.filter fun a => decide (f a = f b) := by simp [ha, hab]
  rw [h1] at this; simpa using this

theorem smaller_le_larger (e : OutputEvent K) : e.smallerX ≤ e.largerX :=
  le_trans (min_le_left _ _) (le_max_left _ _)

theorem eq_iff_extent (e : OutputEvent K) : e.x0 = e.x1 ↔ e.smallerX = e.largerX := by
  unfold OutputEvent.smallerX OutputEvent.largerX
  rcases lt_trichotomy e.x0 e.x1 with h | h | h
  · rw [min_eq_left h.le, max_eq_right h.le]
  · simp [h]
  · rw [min_eq_right h.le, max_eq_left h.le]; exact eq_comm

theorem activePiece_frag (e : OutputEvent K) (a b : K) (h1 : e.smallerX < e.largerX)
    (h2 : b ≤ e.largerX) : activePiece a b (frag e) = pieceOf e a b := by
  unfold activePiece pieceOf
  have hm : min b (frag e).stop = b := min_eq_left h2
  rw [hm]
  by_cases h : e.x0 < e.x1
  · have e1 : e.smallerX = e.x0 := min_eq_left h.le
    have e2 : e.largerX = e.x1 := max_eq_right h.le
    simp [frag, h, e1, e2]
  · have h' : e.x1 ≤ e.x0 := not_lt.1 h
    have e1 : e.smallerX = e.x1 := min_eq_right h'
    have e2 : e.largerX = e.x0 := max_eq_left h'
    simp [frag, h, e1, e2]

theorem pieceOf_xs (e : OutputEvent K) (a b : K) (h : a < b) :
    (pieceOf e a b).smallerX = a ∧ (pieceOf e a b).largerX = b ∧ (pieceOf e a b).segIdx = e.segIdx := by
  unfold pieceOf OutputEvent.smallerX OutputEvent.largerX
  split
  · exact ⟨min_eq_left h.le, max_eq_right h.le, rfl⟩
  · exact ⟨min_eq_right h.le, max_eq_left h.le, rfl⟩

/-- What remains to be emitted for `e` after `cur`. -/
def Remaining (e : OutputEvent K) (cur : WithBot K) (ps : List (OutputEvent K)) : Prop :=
  if cur < (e.smallerX : WithBot K) then
    (if e.x0 = e.x1 then ps = [e] else Tiling e e.smallerX e.largerX ps)
  else if cur < (e.largerX : WithBot K) then ∃ c : K, cur = c ∧ Tiling e c e.largerX ps
  else ps = []

theorem nextEvents_eq (r : SLRange K) (x : K) (hx : r.x = some x)
    (hl : r.lastX = none → r.active = []) :
    r.nextEvents = .batch ((match r.lastX with
        | some lx => r.active.map (activePiece lx x)
        | none => []) ++ pointEvents x r.events)
      ⟨some x, sortActive (takeEvents x (drainActive r.active x) r.events).1,
        (takeEvents x (drainActive r.active x) r.events).2⟩ := by
  unfold SLRange.nextEvents
  rw [hx]
  simp only
  split
  · rename_i h1 h2
    have := hl h2; rw [this] at h1; simp at h1
  · rfl

theorem runEvents_unfold (r : SLRange K) :
    r.runEvents = match r.nextEvents with
      | .done => some []
      | .panic => none
      | .batch evs r' => (r'.runEvents).map fun rest => evs :: rest := by
  rw [SLRange.runEvents]
  split
  · rename_i h; rw [h]
  · rename_i h; rw [h]
  · rename_i evs r' h
    rw [h]
    simp only
    cases r'.runEvents <;> rfl

theorem run_inv (E : List (OutputEvent K)) (hE : E.Pairwise fun a b => a.smallerX ≤ b.smallerX)
    (hnd : (E.map OutputEvent.segIdx).Nodup) : ∀ (n : Nat) (r : SLRange K) (cur : WithBot K),
    r.size ≤ n → RInv E cur r → (cur = match r.lastX with | some l => (l : WithBot K) | none => ⊥) →
    ∃ bs xs, r.runEvents = some bs ∧ Batched r.lastX xs bs ∧
      (∀ e ∈ E, Remaining e cur (bs.flatten.filter fun p => decide (p.segIdx = e.segIdx))) ∧
      (∀ b ∈ bs, ∀ p ∈ b, ∃ e ∈ E, p.segIdx = e.segIdx) := by
  intro n
  induction n with
  | zero =>
    intro r cur hn h _
    have h1 : r.active = [] ∧ r.events = [] := by
      unfold SLRange.size at hn
      exact ⟨List.length_eq_zero_iff.1 (by omega), List.length_eq_zero_iff.1 (by omega)⟩
    have hx : r.x = none := by simp [SLRange.x, h1.1, h1.2]
    refine ⟨[], [], ?_, trivial, ?_, by simp⟩
    · rw [runEvents_unfold]; simp [SLRange.nextEvents, hx]
    · intro e he
      have hp := h.active_perm
      rw [h1.1] at hp
      have hnil := List.nil_perm.1 hp
      rw [List.map_eq_nil_iff, List.filter_eq_nil_iff] at hnil
      have := hnil e he
      obtain ⟨pre, q1, q2, _⟩ := h.split
      rw [h1.2, List.append_nil] at q1
      have hs := q2 e (q1 ▸ he)
      simp only [hs, true_and, decide_eq_true_eq] at this
      simp [Remaining, not_lt.2 hs, this]
  | succ n ih =>
    intro r cur hn h hc
    cases hx : r.x with
    | none =>
      obtain ⟨h1, h2⟩ := x_none r hx
      exact ih r cur (by unfold SLRange.size; rw [h1, h2]; simp) h hc
    | some x =>
      have hcact : r.lastX = none → r.active = [] := by
        intro hl
        rw [hl] at hc
        simp only at hc
        have hp := h.active_perm
        rw [hc] at hp
        have : (E.filter fun e => decide ((e.smallerX : WithBot K) ≤ ⊥ ∧ (⊥ : WithBot K) < (e.largerX : WithBot K))) = [] := by
          rw [List.filter_eq_nil_iff]; intro e _; simp
        rw [this] at hp
        exact List.Perm.eq_nil hp
      have hstep := h.step hE x hx (some x)
      obtain ⟨hcur, hact, hev, _⟩ := h.x_spec hE x hx
      have hsz := size_step r x hx
      obtain ⟨bs, xs, g1, g2, g3, g4⟩ := ih _ (x : WithBot K) (by
        show 2 * _ + _ ≤ n
        have : r.size ≤ n + 1 := hn
        simp only at *
        omega) hstep rfl
      have hne := nextEvents_eq r x hx hcact
      have hap := h.active_perm
      have hEr : r.events.Pairwise fun a b => a.smallerX ≤ b.smallerX := by
        obtain ⟨pre, e1, _⟩ := h.split
        rw [e1] at hE; exact (List.pairwise_append.1 hE).2.1
      have hpts : pointEvents x r.events = r.events.filter fun e => decide (e.smallerX = x ∧ e.x0 = e.x1) := by
        rw [pointEvents_eq, takeWhile_eq_filter _ _ _ hEr, List.filter_filter]
        · apply List.filter_congr
          intro e he
          have hxe : (decide (e.smallerX = x)) = !decide (x < e.smallerX) := by
            have := hev e he
            by_cases q : x < e.smallerX
            · simp [q, ne_of_gt q]
            · simp [q, le_antisymm (not_lt.1 q) this]
          rw [Bool.decide_and, hxe, Bool.and_comm]
        · intro a b hab hb; simp at *; exact le_trans hab hb
      -- the pieces of this batch
      have hpc : (match r.lastX with
        | some lx => r.active.map (activePiece lx x)
        | none => []) = r.active.map (fun a => match r.lastX with
        | some lx => activePiece lx x a
        | none => ⟨x, false, x, false, 0, none, none⟩) := by
        cases hl : r.lastX with
        | none => rw [hcact hl]; simp
        | some l => rfl
      refine ⟨_, x :: xs, by rw [runEvents_unfold, hne]; simp only [g1, Option.map_some]; rfl, ?_, ?_, ?_⟩
      · refine ⟨?_, ?_, g2⟩
        · intro l hl; rw [hl] at hc; rw [hc] at hcur; exact WithBot.coe_lt_coe.1 hcur
        · intro p hp
          rw [List.mem_append] at hp
          rcases hp with hp | hp
          · cases hl : r.lastX with
            | none => rw [hl] at hp; simp at hp
            | some l =>
              rw [hl] at hp hc
              simp only [List.mem_map] at hp hc
              obtain ⟨a, ha, rfl⟩ := hp
              have ha' := hap.mem_iff.1 ha
              simp only [List.mem_map, List.mem_filter, decide_eq_true_eq] at ha'
              obtain ⟨e, ⟨he, hs, hlt⟩, rfl⟩ := ha'
              have hx2 : x ≤ e.largerX := hact _ ha
              have hlx : l < x := by rw [hc] at hcur; exact WithBot.coe_lt_coe.1 hcur
              rw [activePiece_frag e l x (WithBot.coe_lt_coe.1 (lt_of_le_of_lt hs hlt)) hx2]
              obtain ⟨q1, q2, _⟩ := pieceOf_xs e l x hlx
              exact ⟨q2, .inr (by rw [q1])⟩
          · rw [hpts, List.mem_filter, decide_eq_true_eq] at hp
            have := (eq_iff_extent p).1 hp.2.2
            exact ⟨by rw [← this]; exact hp.2.1, .inl hp.2.1⟩
      · intro e he
        have hrem := g3 e he
        rw [List.flatten_cons, List.filter_append, List.filter_append]
        have hactf : ∀ (l : K), cur = l → (r.active.map (activePiece l x)).filter (fun p => decide (p.segIdx = e.segIdx)) =
            if (e.smallerX : WithBot K) ≤ cur ∧ cur < (e.largerX : WithBot K) then [pieceOf e l x] else [] := by
          intro l hl
          rw [List.filter_map]
          have hsame : ∀ a : HFrag K, (activePiece l x a).segIdx = a.seg := by
            intro a; unfold activePiece; dsimp only; split <;> rfl
          have hf : (fun p : OutputEvent K => decide (p.segIdx = e.segIdx)) ∘ activePiece l x =
              fun a => decide (a.seg = e.segIdx) := by funext a; simp [hsame]
          rw [hf]
          have hp2 := hap.filter fun a => decide (a.seg = e.segIdx)
          rw [List.filter_map, List.filter_filter] at hp2
          have hcomp : (E.filter fun a => ((fun a : HFrag K => decide (a.seg = e.segIdx)) ∘ frag) a &&
              decide ((a.smallerX : WithBot K) ≤ cur ∧ cur < (a.largerX : WithBot K))) =
              if (e.smallerX : WithBot K) ≤ cur ∧ cur < (e.largerX : WithBot K) then [e] else [] := by
            rw [← filter_nodup _ _ hnd e he]
            by_cases q : (e.smallerX : WithBot K) ≤ cur ∧ cur < (e.largerX : WithBot K)
            · rw [if_pos q]
              apply List.filter_congr
              intro a ha
              by_cases hs : a.segIdx = e.segIdx
              · have := inj_of_nodup _ _ hnd ha he hs; subst this
                simp [frag, q]
              · simp [frag, hs]
            · rw [if_neg q, List.filter_eq_nil_iff]
              intro a ha
              by_cases hs : a.segIdx = e.segIdx
              · have := inj_of_nodup _ _ hnd ha he hs; subst this
                simpa [frag] using q
              · simp [frag, hs]
          rw [hcomp] at hp2
          by_cases q : (e.smallerX : WithBot K) ≤ cur ∧ cur < (e.largerX : WithBot K)
          · rw [if_pos q] at hp2 ⊢
            have := List.perm_singleton.1 hp2
            rw [this]
            simp only [List.map_cons, List.map_nil]
            have hx2 : x ≤ e.largerX := by
              have hm : frag e ∈ r.active := by
                have : frag e ∈ r.active.filter fun a => decide (a.seg = e.segIdx) := by rw [this]; simp
                exact (List.mem_filter.1 this).1
              exact hact _ hm
            rw [activePiece_frag e l x (WithBot.coe_lt_coe.1 (lt_of_le_of_lt q.1 q.2)) hx2]
          · rw [if_neg q] at hp2 ⊢
            have := List.Perm.eq_nil hp2
            rw [this]; rfl
        have hptf : (pointEvents x r.events).filter (fun p => decide (p.segIdx = e.segIdx)) =
            if e.smallerX = x ∧ e.x0 = e.x1 ∧ cur < (e.smallerX : WithBot K) then [e] else [] := by
          rw [hpts, List.filter_filter]
          obtain ⟨pre, e1, e2, _⟩ := h.split
          have hnd' : (r.events.map OutputEvent.segIdx).Nodup := by
            rw [e1, List.map_append] at hnd; exact (List.nodup_append.1 hnd).2.1
          by_cases q : e ∈ r.events
          · have hq := h.rest e q
            rw [← filter_nodup _ _ hnd' e q]
            by_cases q2 : e.smallerX = x ∧ e.x0 = e.x1
            · rw [if_pos ⟨q2.1, q2.2, hq⟩]
              apply List.filter_congr
              intro a ha
              by_cases hs : a.segIdx = e.segIdx
              · have := inj_of_nodup _ _ hnd' ha q hs; subst this; simp [q2]
              · simp [hs]
            · rw [if_neg (by tauto), List.filter_eq_nil_iff]
              intro a ha
              by_cases hs : a.segIdx = e.segIdx
              · have := inj_of_nodup _ _ hnd' ha q hs; subst this; simpa using q2
              · simp [hs]
          · have hpre : e ∈ pre := by
              rw [e1, List.mem_append] at he; exact he.resolve_right q
            rw [if_neg (by have := not_lt.2 (e2 e hpre); tauto), List.filter_eq_nil_iff]
            intro a ha
            have hs : a.segIdx ≠ e.segIdx := by
              intro hs
              have := inj_of_nodup _ _ hnd (by rw [e1]; simp [ha]) he hs
              exact q (this ▸ ha)
            simp [hs]
        rw [hptf]
        have hle := smaller_le_larger e
        unfold Remaining at hrem ⊢
        generalize (bs.flatten.filter fun p => decide (p.segIdx = e.segIdx)) = rest at *
        cases hl : r.lastX with
        | none =>
          rw [hl] at hc
          simp only at hc
          subst hc
          rw [if_pos (WithBot.bot_lt_coe _)]
          simp only [List.filter_nil, List.nil_append, WithBot.bot_lt_coe, and_true]
          -- position x: is `e` at x or later?
          have hge : x ≤ e.smallerX := by
            obtain ⟨pre, e1, e2, _⟩ := h.split
            rw [e1, List.mem_append] at he
            rcases he with he | he
            · exact absurd (e2 e he) (by simp)
            · exact hev e he
          by_cases q1 : x < e.smallerX
          · have : ¬ e.smallerX = x := ne_of_gt q1
            rw [if_pos (WithBot.coe_lt_coe.2 q1)] at hrem
            simpa [this] using hrem
          · have hxe : e.smallerX = x := le_antisymm (not_lt.1 q1) hge
            rw [if_neg (by simpa using q1)] at hrem
            by_cases q2 : e.x0 = e.x1
            · have := (eq_iff_extent e).1 q2
              rw [if_neg (by rw [← this]; simpa using q1)] at hrem
              simp [hxe, q2, hrem]
            · have hlt : e.smallerX < e.largerX :=
                lt_of_le_of_ne hle (fun hh => q2 ((eq_iff_extent e).2 hh))
              rw [if_pos (WithBot.coe_lt_coe.2 (hxe ▸ hlt))] at hrem
              obtain ⟨c, hc1, hc2⟩ := hrem
              have : x = c := WithBot.coe_inj.1 hc1
              subst this
              simpa [q2, hxe] using hc2
        | some l =>
          rw [hl] at hc
          simp only at hc
          rw [hactf l hc]
          subst hc
          by_cases q0 : (l : WithBot K) < (e.smallerX : WithBot K)
          · have q0' : ¬ ((e.smallerX : WithBot K) ≤ l ∧ (l : WithBot K) < (e.largerX : WithBot K)) :=
              fun hh => absurd hh.1 (not_le.2 q0)
            rw [if_pos q0, if_neg q0']
            have hge : x ≤ e.smallerX := by
              obtain ⟨pre, e1, e2, _⟩ := h.split
              rw [e1, List.mem_append] at he
              rcases he with he | he
              · exact absurd (e2 e he) (not_le.2 q0)
              · exact hev e he
            simp only [List.nil_append, q0, and_true]
            by_cases q1 : x < e.smallerX
            · have : ¬ e.smallerX = x := ne_of_gt q1
              rw [if_pos (WithBot.coe_lt_coe.2 q1)] at hrem
              simpa [this] using hrem
            · have hxe : e.smallerX = x := le_antisymm (not_lt.1 q1) hge
              rw [if_neg (by simpa using q1)] at hrem
              by_cases q2 : e.x0 = e.x1
              · have := (eq_iff_extent e).1 q2
                rw [if_neg (by rw [← this]; simpa using q1)] at hrem
                simp [hxe, q2, hrem]
              · have hlt : e.smallerX < e.largerX :=
                  lt_of_le_of_ne hle (fun hh => q2 ((eq_iff_extent e).2 hh))
                rw [if_pos (WithBot.coe_lt_coe.2 (hxe ▸ hlt))] at hrem
                obtain ⟨c, hc1, hc2⟩ := hrem
                have : x = c := WithBot.coe_inj.1 hc1
                subst this
                simpa [q2, hxe] using hc2
          · rw [if_neg q0]
            have hs : (e.smallerX : WithBot K) ≤ l := not_lt.1 q0
            have hxs : ¬ (x : WithBot K) < (e.smallerX : WithBot K) := not_lt.2 (le_trans hs hcur.le)
            rw [if_neg hxs] at hrem
            have hpt : ¬ (e.smallerX = x ∧ e.x0 = e.x1 ∧ (l : WithBot K) < (e.smallerX : WithBot K)) := by
              intro hh; exact q0 hh.2.2
            rw [if_neg hpt, List.append_nil]
            by_cases q3 : (l : WithBot K) < (e.largerX : WithBot K)
            · rw [if_pos q3, if_pos ⟨hs, q3⟩]
              refine ⟨l, rfl, x, WithBot.coe_lt_coe.1 hcur, ?_, rfl, ?_⟩
              · have hm : frag e ∈ r.active := by
                  rw [hap.mem_iff]
                  exact List.mem_map_of_mem (by simp only [List.mem_filter, decide_eq_true_eq]; exact ⟨he, hs, q3⟩)
                exact hact _ hm
              · by_cases q4 : (x : WithBot K) < (e.largerX : WithBot K)
                · rw [if_pos q4] at hrem
                  obtain ⟨c, hc1, hc2⟩ := hrem
                  have : x = c := WithBot.coe_inj.1 hc1
                  subst this; exact hc2
                · rw [if_neg q4] at hrem
                  have hm : frag e ∈ r.active := by
                    rw [hap.mem_iff]
                    exact List.mem_map_of_mem (by simp only [List.mem_filter, decide_eq_true_eq]; exact ⟨he, hs, q3⟩)
                  have h5 : x ≤ e.largerX := hact _ hm
                  have h6 : e.largerX ≤ x := WithBot.coe_le_coe.1 (not_lt.1 q4)
                  rw [hrem]; exact le_antisymm h5 h6
            · rw [if_neg q3, if_neg (fun hh => q3 hh.2)]
              rw [if_neg (fun hh => q3 (lt_trans hcur hh))] at hrem
              simpa using hrem
      · intro b hb p hp
        rw [List.mem_cons] at hb
        rcases hb with rfl | hb
        · rw [List.mem_append] at hp
          rcases hp with hp | hp
          · cases hl : r.lastX with
            | none => rw [hl] at hp; simp at hp
            | some l =>
              rw [hl] at hp
              simp only [List.mem_map] at hp
              obtain ⟨a, ha, rfl⟩ := hp
              have ha' := hap.mem_iff.1 ha
              simp only [List.mem_map, List.mem_filter, decide_eq_true_eq] at ha'
              obtain ⟨e, ⟨he, _⟩, rfl⟩ := ha'
              refine ⟨e, he, ?_⟩
              unfold activePiece; dsimp only; split <;> rfl
          · rw [hpts, List.mem_filter] at hp
            obtain ⟨pre, e1, _⟩ := h.split
            exact ⟨p, by rw [e1]; simp [hp.1], rfl⟩
        · exact g4 b hb p hp

/-- **C37.** For every list of events sorted by their left end, with one event per segment, repeatedly
calling `events()` never panics and finishes; the batches sit at strictly increasing positions, batch
`k` containing only pieces between positions `k-1` and `k` and points at position `k`; and the pieces
emitted for an event are exactly: the event itself if it is a point, otherwise consecutive pieces that
tile its horizontal extent, connected up or down only at the true ends. Nothing else is emitted. -/
theorem C37_tiles (E : List (OutputEvent K)) (hE : E.Pairwise fun a b => a.smallerX ≤ b.smallerX)
    (hnd : (E.map OutputEvent.segIdx).Nodup) :
    ∃ bs xs, (SLRange.new E).runEvents = some bs ∧ Batched none xs bs ∧
      (∀ e ∈ E, (e.x0 = e.x1 → bs.flatten.filter (fun p => decide (p.segIdx = e.segIdx)) = [e]) ∧
        (e.x0 ≠ e.x1 → Tiling e e.smallerX e.largerX
          (bs.flatten.filter fun p => decide (p.segIdx = e.segIdx)))) ∧
      (∀ b ∈ bs, ∀ p ∈ b, ∃ e ∈ E, p.segIdx = e.segIdx) := by
  obtain ⟨bs, xs, h1, h2, h3, h4⟩ := run_inv E hE hnd _ (SLRange.new E) ⊥ le_rfl (rinv_new E) rfl
  refine ⟨bs, xs, h1, h2, ?_, h4⟩
  intro e he
  have := h3 e he
  unfold Remaining at this
  rw [if_pos (WithBot.bot_lt_coe _)] at this
  constructor
  · intro q; rwa [if_pos q] at this
  · intro q; rwa [if_neg q] at this

/-- **C37 (`increase_x`).** Driving a range with `x`/`increase_x` visits strictly increasing positions:
after any number of calls of `increase_x`, the next position is larger than the previous one. -/
def iterX : Nat → SLRange K → SLRange K
  | 0, r => r
  | n + 1, r => iterX n r.increaseX

theorem iterX_succ (n : Nat) (r : SLRange K) : iterX (n + 1) r = (iterX n r).increaseX := by
  induction n generalizing r with
  | zero => rfl
  | succ n ih => rw [iterX, ih, iterX]

theorem rinv_iter (E : List (OutputEvent K)) (hE : E.Pairwise fun a b => a.smallerX ≤ b.smallerX) (n : Nat) :
    ∃ cur, RInv E cur (iterX n (SLRange.new E)) := by
  induction n with
  | zero => exact ⟨⊥, rinv_new E⟩
  | succ n ih =>
    obtain ⟨cur, h⟩ := ih
    rw [iterX_succ]
    cases hx : (iterX n (SLRange.new E)).x with
    | none =>
      refine ⟨cur, ?_⟩
      unfold SLRange.increaseX; rw [hx]
      obtain ⟨h1, _⟩ := x_none _ hx
      have : sortActive (iterX n (SLRange.new E)).active = (iterX n (SLRange.new E)).active := by
        rw [h1]; simp [sortActive]
      simp only [this]
      exact h
    | some x =>
      refine ⟨x, ?_⟩
      unfold SLRange.increaseX; rw [hx]
      exact h.step hE x hx _

theorem C37_positions_increase (E : List (OutputEvent K))
    (hE : E.Pairwise fun a b => a.smallerX ≤ b.smallerX) (n : Nat) (x y : K)
    (hx : (iterX n (SLRange.new E)).x = some x) (hy : (iterX (n + 1) (SLRange.new E)).x = some y) : x < y := by
  obtain ⟨cur, h⟩ := rinv_iter E hE n
  have h2 := h.step hE x hx (iterX n (SLRange.new E)).lastX
  rw [iterX_succ] at hy
  unfold SLRange.increaseX at hy
  rw [hx] at hy
  exact WithBot.coe_lt_coe.1 (h2.x_spec hE y hy).1

/-- Only ends of events are visited (completeness: `C37_positions_exact`). -/
theorem C37_positions_are_ends (E : List (OutputEvent K))
    (hE : E.Pairwise fun a b => a.smallerX ≤ b.smallerX) (n : Nat) (x : K)
    (hx : (iterX n (SLRange.new E)).x = some x) : ∃ e ∈ E, e.x0 = x ∨ e.x1 = x := by
  obtain ⟨cur, h⟩ := rinv_iter E hE n
  obtain ⟨_, _, _, h4⟩ := h.x_spec hE x hx
  rcases h4 with ⟨a, ha, rfl⟩ | ⟨e, he, rfl⟩
  · have := h.active_perm.mem_iff.1 ha
    simp only [List.mem_map, List.mem_filter] at this
    obtain ⟨e, ⟨he, _⟩, rfl⟩ := this
    refine ⟨e, he, ?_⟩
    rcases max_choice e.x0 e.x1 with q | q
    · exact .inl q.symm
    · exact .inr q.symm
  · obtain ⟨pre, e1, _⟩ := h.split
    refine ⟨e, by rw [e1]; simp [he], ?_⟩
    rcases min_choice e.x0 e.x1 with q | q
    · exact .inl q.symm
    · exact .inr q.symm

/-! ## Non-vacuity: two overlapping fragments (one of them running right to left) and a point. -/

def sampleEvents : List (OutputEvent Nat) :=
  [⟨5, true, 0, true, 0, some 0, some 1⟩, ⟨1, true, 3, false, 1, some 1, some 0⟩, ⟨3, false, 3, true, 2, some 2, none⟩]

example : sampleEvents.Pairwise (fun a b => a.smallerX ≤ b.smallerX) ∧
    (sampleEvents.map OutputEvent.segIdx).Nodup := by decide

example : (SLRange.new sampleEvents).runEvents = some
    [[], [⟨1, false, 0, true, 0, some 0, some 1⟩],
     [⟨1, true, 3, false, 1, some 1, some 0⟩, ⟨3, false, 1, false, 0, some 0, some 1⟩, ⟨3, false, 3, true, 2, some 2, none⟩],
     [⟨5, true, 3, false, 0, some 0, some 1⟩]] := by
  simp [sampleEvents, SLRange.new, runEvents_unfold, SLRange.nextEvents, SLRange.x, OutputEvent.smallerX,
    takeEvents, drainActive, HFrag.fromPosition, pointEvents, sortActive, activePiece, List.mergeSort,
    List.MergeSort.Internal.splitInTwo]

end Verif.Range
