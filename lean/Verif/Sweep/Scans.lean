import Verif.Sweep.Queue
import Verif.Curve.Props

/-! What the scans for intersections put in the queue. -/

namespace Verif.Sweep
open Verif.Curve Verif.Range Verif.Topo
set_option linter.unusedSectionVars false

variable {K : Type} [LinearOrder K]

/-- An event that comes from comparing two segments of the line, none of which ends here. -/
def Found (E : Env K) (y : K) (line : List Entry) (e : IEvent K) : Prop :=
  ∃ a ∈ line, ∃ b ∈ line, E.endY a.seg ≠ y ∧ E.endY b.seg ≠ y ∧ touchEvent E y a.seg b.seg = some (some e)

theorem Found.mono {E : Env K} {y : K} {l l' : List Entry} {e : IEvent K} (h : Found E y l e) (hl : ∀ a ∈ l, a ∈ l') : Found E y l' e := by
  obtain ⟨a, ha, b, hb, h⟩ := h
  exact ⟨a, hl a ha, b, hl b hb, h⟩

/-- The queue after scanning: sorted, nothing is lost, and what is new has been found by comparing segments of the line. -/
structure Grows (E : Env K) (y : K) (line : List Entry) (q q' : List (IEvent K)) : Prop where
  sorted : QSorted q → QSorted q'
  keep : ∀ e ∈ q, e ∈ q'
  found : ∀ e ∈ q', e ∈ q ∨ Found E y line e

theorem Grows.refl (E : Env K) (y : K) (line : List Entry) (q : List (IEvent K)) : Grows E y line q q :=
  ⟨id, fun _ h => h, fun _ h => .inl h⟩

theorem Grows.trans {E : Env K} {y : K} {line : List Entry} {q q' q'' : List (IEvent K)} (h : Grows E y line q q')
    (h' : Grows E y line q' q'') : Grows E y line q q'' :=
  ⟨fun s => h'.sorted (h.sorted s), fun e he => h'.keep e (h.keep e he), fun e he => by
    rcases h'.found e he with h1 | h1
    · exact h.found e h1
    · exact .inr h1⟩

theorem Grows.mono {E : Env K} {y : K} {l l' : List Entry} {q q' : List (IEvent K)} (h : Grows E y l q q')
    (hl : ∀ a ∈ l, a ∈ l') : Grows E y l' q q' :=
  ⟨h.sorted, h.keep, fun e he => (h.found e he).imp id fun f => f.mono hl⟩

theorem Grows.push {E : Env K} {y : K} {line : List Entry} {q : List (IEvent K)} {ev : IEvent K} (hf : Found E y line ev) :
    Grows E y line q (pushInt ev q) :=
  ⟨pushInt_sorted ev q, fun e he => (mem_pushInt ev q e).2 (.inr he), fun e he => by
    rcases (mem_pushInt ev q e).1 he with rfl | h
    · exact .inr hf
    · exact .inl h⟩

theorem scanRightLoop_grows {E : Env K} {y : K} {line : List Entry} {a : Entry} (ha : a ∈ line) (hy : E.endY a.seg ≠ y)
    (rest : List Entry) (hr : ∀ b ∈ rest, b ∈ line) :
    ∀ hb q q', scanRightLoop E y a.seg rest hb q = some q' → Grows E y line q q' := by
  induction rest with
  | nil => intro hb q q' h; simp only [scanRightLoop, Option.some.injEq] at h; subst h; exact Grows.refl ..
  | cons o rest ih =>
    intro hb q q' h
    have ih' := ih fun b hb => hr b (List.mem_cons_of_mem _ hb)
    simp only [scanRightLoop] at h
    by_cases h1 : E.endY o.seg = y
    · rw [if_pos h1] at h; exact ih' _ _ _ h
    rw [if_neg h1] at h
    by_cases h2 : E.farRight a.seg o.seg = true
    · rw [if_pos h2] at h; simp only [Option.some.injEq] at h; subst h; exact Grows.refl ..
    · rw [if_neg h2] at h
      split at h
      · simp at h
      · split_ifs at h
        · simp only [Option.some.injEq] at h; subst h; exact Grows.refl ..
        · exact ih' _ _ _ h
      · rename_i ev hev
        have hf : Found E y line ev := ⟨a, ha, o, hr o (by simp), hy, h1, hev⟩
        split_ifs at h
        · simp only [Option.some.injEq] at h; subst h; exact Grows.push hf
        · exact (Grows.push hf).trans (ih' _ _ _ h)

theorem scanLeftLoop_grows {E : Env K} {y : K} {line : List Entry} {a : Entry} (ha : a ∈ line) (hy : E.endY a.seg ≠ y)
    (rest : List Entry) (hr : ∀ b ∈ rest, b ∈ line) :
    ∀ hb q q', scanLeftLoop E y a.seg rest hb q = some q' → Grows E y line q q' := by
  induction rest with
  | nil => intro hb q q' h; simp only [scanLeftLoop, Option.some.injEq] at h; subst h; exact Grows.refl ..
  | cons o rest ih =>
    intro hb q q' h
    have ih' := ih fun b hb => hr b (List.mem_cons_of_mem _ hb)
    simp only [scanLeftLoop] at h
    by_cases h1 : E.endY o.seg = y
    · rw [if_pos h1] at h; exact ih' _ _ _ h
    rw [if_neg h1] at h
    by_cases h2 : E.farLeft a.seg o.seg = true
    · rw [if_pos h2] at h; simp only [Option.some.injEq] at h; subst h; exact Grows.refl ..
    · rw [if_neg h2] at h
      split at h
      · simp at h
      · split_ifs at h
        · simp only [Option.some.injEq] at h; subst h; exact Grows.refl ..
        · exact ih' _ _ _ h
      · rename_i ev hev
        have hf : Found E y line ev := ⟨o, hr o (by simp), a, ha, h1, hy, hev⟩
        split_ifs at h
        · simp only [Option.some.injEq] at h; subst h; exact Grows.push hf
        · exact (Grows.push hf).trans (ih' _ _ _ h)

theorem scanRight_grows {E : Env K} {y : K} {line : List Entry} {i : Nat} {q q' : List (IEvent K)}
    (h : scanRight E y line i q = some q') : Grows E y line q q' := by
  unfold scanRight at h
  split at h
  · simp at h
  · rename_i e he
    split_ifs at h with h1
    · simp only [Option.some.injEq] at h; subst h; exact Grows.refl ..
    · exact scanRightLoop_grows (List.mem_of_getElem? he) h1 _ (fun b hb => List.mem_of_mem_drop hb) _ _ _ h

theorem scanLeft_grows {E : Env K} {y : K} {line : List Entry} {i : Nat} {q q' : List (IEvent K)}
    (h : scanLeft E y line i q = some q') : Grows E y line q q' := by
  unfold scanLeft at h
  split at h
  · simp at h
  · rename_i e he
    split_ifs at h with h1
    · simp only [Option.some.injEq] at h; subst h; exact Grows.refl ..
    · exact scanLeftLoop_grows (List.mem_of_getElem? he) h1 _
        (fun b hb => List.mem_of_mem_take (List.mem_reverse.1 hb)) _ _ _ h

theorem scanBoth_grows {E : Env K} {y : K} {line : List Entry} {i : Nat} {q q' : List (IEvent K)}
    (h : scanBoth E y line i q = some q') : Grows E y line q q' := by
  unfold scanBoth at h
  rw [Option.bind_eq_some_iff] at h
  obtain ⟨q1, h1, h2⟩ := h
  exact (scanRight_grows h1).trans (scanLeft_grows h2)

theorem scanForRemoval_grows {E : Env K} {y : K} {line : List Entry} {i : Nat} {q q' : List (IEvent K)}
    (h : scanForRemoval E y line i q = some q') : Grows E y line q q' := by
  unfold scanForRemoval at h
  split_ifs at h
  · exact scanBoth_grows h
  · simp only [Option.some.injEq] at h; subst h; exact Grows.refl ..

theorem insertScan_spec {E : Env K} {y : K} {line : List Entry} {pos : Nat} {e : Entry} {q : List (IEvent K)}
    {r : List Entry × List (IEvent K)} (h : insertScan E y line pos e q = some r) :
    pos ≤ line.length ∧ r.1 = line.insertIdx pos e ∧ Grows E y (line.insertIdx pos e) q r.2 := by
  unfold insertScan at h
  split_ifs at h with hp
  dsimp only at h
  rw [Option.map_eq_some_iff] at h
  obtain ⟨q', h1, rfl⟩ := h
  exact ⟨hp, rfl, scanBoth_grows h1⟩

/-- Every event that a scan finds lies at or below the sweep line. -/
theorem touchEvent_le {E : Env K} {y : K} {a b : Nat} {e : IEvent K} (h : touchEvent E y a b = some (some e)) : y ≤ e.y := by
  unfold touchEvent at h
  split at h
  · simp at h
  · simp at h
  · simp only [Option.some.injEq] at h; subst h; exact le_max_left _ _
  · simp only [Option.some.injEq] at h
    split_ifs at h with hy
    simp only [Option.some.injEq] at h; subst h; exact hy.le

theorem touchEvent_segs {E : Env K} {y : K} {a b : Nat} {e : IEvent K} (h : touchEvent E y a b = some (some e)) :
    (e.left = a ∧ e.right = b) ∨ (e.left = b ∧ e.right = a) := by
  unfold touchEvent at h
  split at h
  · simp at h
  · simp at h
  · simp only [Option.some.injEq] at h; subst h; exact .inl ⟨rfl, rfl⟩
  · simp only [Option.some.injEq] at h
    split_ifs at h with hy
    simp only [Option.some.injEq] at h; subst h; exact .inr ⟨rfl, rfl⟩

end Verif.Sweep
