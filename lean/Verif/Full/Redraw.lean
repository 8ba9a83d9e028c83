import Verif.Full.Complement
import Mathlib.Data.List.Rotate

/-!
# C101: how the polygons are written down does not matter

The order of the polygons of a shape, the vertex at which each of them begins, and the direction of all of them (with the even-odd rule: of each of them) have no influence on the
region of the result, away from the edges.
-/

namespace Verif.Full
open Verif.Segs (Segments PathEl)
open Verif.Curve Verif.BinOp

/-! ## Specification -/

/-- The same polygon, from vertex number `n` on, in the other direction if `back`. -/
def Redrawn (back : Bool) (ps ps' : List (Segs.Pt ℝ)) : Prop := ∃ n, ps' = if back then (ps.rotate n).reverse else ps.rotate n

/-- The same polygons in any order, each from any vertex on; with the non-zero rule all in the same direction as before or all in the other one, with the even-odd rule each
in any direction. -/
def SameShape (rule : FillRule) (as as' : List (List (Segs.Pt ℝ))) : Prop :=
  ∃ (all : Bool) (l : List (List (Segs.Pt ℝ))), l.Perm as' ∧ List.Forall₂ (fun ps ps' => ∃ back, Redrawn back ps ps' ∧ (rule = .nonZero → back = all)) as l

/-! ## Edges -/

theorem closedEdges_zip {ps : List (Segs.Pt ℝ)} (h : 2 ≤ ps.length) : Segs.closedEdges ps = ps.zip (ps.rotate 1) := by
  unfold Segs.closedEdges
  rw [if_neg (by omega)]
  congr 1
  cases ps with
  | nil => simp at h
  | cons p ps => simp

theorem closedEdges_short {ps : List (Segs.Pt ℝ)} (h : ¬ 2 ≤ ps.length) : Segs.closedEdges ps = [] := by
  unfold Segs.closedEdges
  rw [if_pos (by omega)]

theorem closedEdges_rotate (ps : List (Segs.Pt ℝ)) (n : Nat) : (Segs.closedEdges (ps.rotate n)).Perm (Segs.closedEdges ps) := by
  by_cases h : 2 ≤ ps.length
  · rw [closedEdges_zip h, closedEdges_zip (by simpa using h), List.rotate_rotate, Nat.add_comm, ← List.rotate_rotate]
    have := List.zipWith_rotate_distrib Prod.mk ps (ps.rotate 1) n (by simp)
    simp only [List.zip]
    rw [← this]
    exact List.rotate_perm _ _
  · rw [closedEdges_short h, closedEdges_short (by simpa using h)]

theorem closedEdges_reverse (ps : List (Segs.Pt ℝ)) : (Segs.closedEdges ps.reverse).Perm ((Segs.closedEdges ps).map Prod.swap) := by
  by_cases h : 2 ≤ ps.length
  · rw [closedEdges_zip h, closedEdges_zip (by simpa using h), List.rotate_reverse, Nat.mod_eq_of_lt (by omega)]
    have h1 : ps.reverse.zip (ps.rotate (ps.length - 1)).reverse = (ps.zip (ps.rotate (ps.length - 1))).reverse := by
      simp only [List.zip]
      rw [List.reverse_zipWith (by simp)]
    have h2 : ((ps.rotate 1).zip ps).rotate (ps.length - 1) = ps.zip (ps.rotate (ps.length - 1)) := by
      rw [List.zip, List.zipWith_rotate_distrib _ _ _ _ (by simp), List.rotate_rotate, show 1 + (ps.length - 1) = ps.length by omega, List.rotate_length]
    rw [h1, ← h2, List.zip_swap]
    exact (List.reverse_perm _).trans (List.rotate_perm _ _)
  · rw [closedEdges_short h, closedEdges_short (by simpa using h)]
    simp

theorem Redrawn.edges {back : Bool} {ps ps' : List (Segs.Pt ℝ)} (h : Redrawn back ps ps') :
    (Segs.closedEdges ps').Perm ((Segs.closedEdges ps).map fun e => if back then e.swap else e) := by
  obtain ⟨n, rfl⟩ := h
  cases back with
  | false => simpa using closedEdges_rotate ps n
  | true => simpa using (closedEdges_reverse _).trans ((closedEdges_rotate ps n).map _)

theorem Redrawn.mem {back : Bool} {ps ps' : List (Segs.Pt ℝ)} (h : Redrawn back ps ps') {p : Segs.Pt ℝ} : p ∈ ps' ↔ p ∈ ps := by
  obtain ⟨n, rfl⟩ := h
  cases back <;> simp

open Classical in
/-- The edge without its direction; horizontal edges are left out. -/
noncomputable def key (e : Segs.Pt ℝ × Segs.Pt ℝ) : Option Geom.Seg := if e.1.y = e.2.y then none else some (down e)

theorem key_swap (e : Segs.Pt ℝ × Segs.Pt ℝ) : key e.swap = key e := by
  obtain ⟨a, b⟩ := e
  unfold key down
  simp only [Prod.swap]
  rcases lt_trichotomy a.y b.y with h | h | h
  · rw [if_neg (by linarith : ¬ b.y = a.y), if_neg (by linarith : ¬ a.y = b.y), if_neg (by linarith : ¬ b.y < a.y), if_pos h]
  · rw [if_pos h.symm, if_pos h]
  · rw [if_neg (by linarith : ¬ b.y = a.y), if_neg (by linarith : ¬ a.y = b.y), if_pos h, if_neg (by linarith : ¬ a.y < b.y)]

theorem Redrawn.keys {back : Bool} {ps ps' : List (Segs.Pt ℝ)} (h : Redrawn back ps ps') : ((Segs.closedEdges ps').map key).Perm ((Segs.closedEdges ps).map key) := by
  refine (h.edges.map key).trans (List.Perm.of_eq ?_)
  rw [List.map_map]
  refine List.map_congr_left fun e _ => ?_
  cases back <;> simp [key_swap]

theorem edgeAt_key {pss : List (List (Segs.Pt ℝ))} {t : ℝ} {i : Nat} {g : Geom.Seg} :
    EdgeAt pss t i g ↔ ((edges pss).map key)[i]? = some (some g) ∧ g.start.y ≤ t ∧ t ≤ g.stop.y := by
  unfold EdgeAt
  rw [List.getElem?_map]
  constructor
  · rintro ⟨e, h1, h2, rfl, h3⟩
    refine ⟨?_, h3⟩
    rw [h1, Option.map_some, key, if_neg h2]
  · rintro ⟨h1, h3⟩
    obtain ⟨e, h1, h2⟩ := Option.map_eq_some_iff.1 h1
    unfold key at h2
    split_ifs at h2 with h
    exact ⟨e, h1, h, (Option.some.inj h2).symm, h3⟩

theorem perm_index {α : Type} {l l' : List α} (h : l.Perm l') : ∃ σ : Nat → Nat, Function.Injective σ ∧ ∀ i, l'[σ i]? = l[i]? := by
  induction h with
  | nil => exact ⟨id, Function.injective_id, fun _ => rfl⟩
  | cons x _ ih =>
    obtain ⟨σ, h1, h2⟩ := ih
    refine ⟨fun | 0 => 0 | i + 1 => σ i + 1, ?_, ?_⟩
    · rintro (_ | i) (_ | j) e
      · rfl
      · simp at e
      · simp at e
      · simpa using h1 (by simpa using e)
    · rintro (_ | i)
      · rfl
      · simpa using h2 i
  | swap x y l =>
    refine ⟨fun | 0 => 1 | 1 => 0 | i + 2 => i + 2, ?_, ?_⟩
    · rintro (_ | _ | i) (_ | _ | j) e <;> simp_all
    · rintro (_ | _ | i) <;> rfl
  | trans _ _ ih ih' =>
    obtain ⟨σ, h1, h2⟩ := ih
    obtain ⟨τ, h3, h4⟩ := ih'
    exact ⟨τ ∘ σ, h3.comp h1, fun i => (h4 _).trans (h2 i)⟩

/-! ## Inputs with the same edges -/

/-- The same edges in another order and with other directions, and the same vertices. -/
structure SameLines (pss pss' : List (List (Segs.Pt ℝ))) : Prop where
  keys : ((edges pss').map key).Perm ((edges pss).map key)
  edge : ∀ ps' ∈ pss', ∀ e ∈ Segs.closedEdges ps', ∃ ps ∈ pss, e ∈ Segs.closedEdges ps ∨ e.swap ∈ Segs.closedEdges ps
  vertex : ∀ ps' ∈ pss', ∀ p ∈ ps', ∃ ps ∈ pss, p ∈ ps

theorem SameLines.append {as as' bs bs' : List (List (Segs.Pt ℝ))} (ha : SameLines as as') (hb : SameLines bs bs') : SameLines (as ++ bs) (as' ++ bs') := by
  refine ⟨?_, fun ps' h e he => ?_, fun ps' h p hp => ?_⟩
  · rw [edges_append, edges_append, List.map_append, List.map_append]
    exact ha.keys.append hb.keys
  · rcases List.mem_append.1 h with h | h
    · obtain ⟨ps, h1, h2⟩ := ha.edge ps' h e he
      exact ⟨ps, List.mem_append_left _ h1, h2⟩
    · obtain ⟨ps, h1, h2⟩ := hb.edge ps' h e he
      exact ⟨ps, List.mem_append_right _ h1, h2⟩
  · rcases List.mem_append.1 h with h | h
    · obtain ⟨ps, h1, h2⟩ := ha.vertex ps' h p hp
      exact ⟨ps, List.mem_append_left _ h1, h2⟩
    · obtain ⟨ps, h1, h2⟩ := hb.vertex ps' h p hp
      exact ⟨ps, List.mem_append_right _ h1, h2⟩

theorem SameLines.edges {pss pss' : List (List (Segs.Pt ℝ))} (h : SameLines pss pss') {g : Geom.Seg} (hg : Edge pss' g) : Edge pss g := by
  obtain ⟨ps', h1, e, h2, h3, h4⟩ := hg
  obtain ⟨ps, k1, k2⟩ := h.edge ps' h1 e h2
  rcases k2 with k2 | k2
  · exact ⟨ps, k1, e, k2, h3, h4⟩
  · exact ⟨ps, k1, _, k2, h3.symm, h4⟩

/-- General position only depends on the edges. -/
theorem SameLines.loose {eps : ℝ} {pss pss' : List (List (Segs.Pt ℝ))} (h : SameLines pss pss') (hP : LoosePolygons eps pss) : LoosePolygons eps pss' := by
  obtain ⟨σ, hσ, hi⟩ := perm_index h.keys
  have at' : ∀ {t i g}, EdgeAt pss' t i g → EdgeAt pss t (σ i) g := by
    intro t i g hg
    rw [edgeAt_key] at hg ⊢
    rw [hi]
    exact hg
  refine ⟨fun g hg => hP.moderate g (h.edges hg), fun g g' hg hg' => hP.upright g g' (h.edges hg) (h.edges hg'), ?_, ?_⟩
  · intro i j k a b c t n ha hb hc hq hch hm
    have hch' : EdgeChain eps pss t (σ i) (σ j) := by
      unfold EdgeChain at hch ⊢
      clear hq n hb
      induction hch with
      | refl => exact .refl
      | tail _ h2 ih =>
        obtain ⟨p, q, h1, h2, h3⟩ := h2
        exact ih.tail ⟨p, q, at' h1, at' h2, h3⟩
    rcases hP.alone _ _ _ a b c t (fun e => n (hσ e)) (at' ha) (at' hb) (at' hc) hq hch' hm with e | e
    · exact .inl (hσ e)
    · exact .inr (hσ e)
  · rintro i j a b t n hq ⟨ps, h1, p, h2, h3⟩ ha hb hm
    obtain ⟨ps0, k1, k2⟩ := h.vertex ps h1 p h2
    exact hP.ends _ _ a b t (fun e => n (hσ e)) hq ⟨ps0, k1, p, k2, h3⟩ (at' ha) (at' hb) hm

theorem SameLines.beyond {cfg : Cfg} {pss pss' : List (List (Segs.Pt ℝ))} (h : SameLines pss pss') (hB : BeyondCorners cfg pss) : BeyondCorners cfg pss' := by
  intro ps' h1 e h2
  obtain ⟨ps, k1, k2⟩ := h.edge ps' h1 e h2
  rcases k2 with k2 | k2
  · exact hB ps k1 e k2
  · exact (hB ps k1 _ k2).symm

theorem SameLines.distant {eps x z : ℝ} {pss pss' : List (List (Segs.Pt ℝ))} (h : SameLines pss pss') (hx : Distant eps pss x z) : Distant eps pss' x z := by
  intro ps' h1 e h2 v v0 v1
  obtain ⟨ps, k1, k2⟩ := h.edge ps' h1 e h2
  rcases k2 with k2 | k2
  · exact hx ps k1 e k2 v v0 v1
  · have := hx ps k1 _ k2 (1 - v) (by linarith) (by linarith)
    simp only [Prod.fst_swap, Prod.snd_swap, sub_sub_cancel] at this
    rw [add_comm (v * e.2.x), add_comm (v * e.2.y)] at this
    exact this

theorem SameShape.lines {rule : FillRule} {as as' : List (List (Segs.Pt ℝ))} (h : SameShape rule as as') : SameLines as as' := by
  obtain ⟨all, l, hp, hl⟩ := h
  have key' : SameLines as l := by
    clear hp
    induction hl with
    | nil => exact ⟨.refl _, by simp, by simp⟩
    | cons h _ ih =>
      rename_i ps ps' as l _
      obtain ⟨back, hr, -⟩ := h
      have h1 : SameLines [ps] [ps'] := by
        refine ⟨by simpa [Full.edges] using hr.keys, ?_, ?_⟩
        · intro q hq e he
          rw [List.mem_singleton] at hq
          subst hq
          refine ⟨ps, by simp, ?_⟩
          obtain ⟨f, hf, rfl⟩ := List.mem_map.1 ((hr.edges.mem_iff).1 he)
          cases back
          · exact .inl (by simpa using hf)
          · exact .inr (by simpa using hf)
        · intro q hq p hpq
          rw [List.mem_singleton] at hq
          subst hq
          exact ⟨ps, by simp, hr.mem.1 hpq⟩
      simpa using h1.append ih
  refine ⟨?_, fun ps' h1 => key'.edge ps' (hp.mem_iff.2 h1), fun ps' h1 => key'.vertex ps' (hp.mem_iff.2 h1)⟩
  refine List.Perm.trans ?_ key'.keys
  exact (hp.symm.flatMap_right _).map _

/-! ## Winding numbers -/

theorem cross_swap (a b : Segs.Pt ℝ) (x z : ℝ) : cross (.line b a) x z = - cross (.line a b) x z := by
  unfold cross
  simp only [Segs.Seg.start, Segs.Seg.stop, Segs.Seg.rev]
  by_cases h1 : b.y ≤ z ∧ z < a.y ∧ atY (.line b a) z < x <;> by_cases h2 : a.y ≤ z ∧ z < b.y ∧ atY (.line a b) z < x
  · linarith [h1.1, h1.2.1, h2.1, h2.2.1]
  all_goals simp [h1, h2]

theorem Redrawn.wind {back : Bool} {ps ps' : List (Segs.Pt ℝ)} (h : Redrawn back ps ps') (x z : ℝ) :
    windPolyline ps' x z = if back then - windPolyline ps x z else windPolyline ps x z := by
  unfold windPolyline
  rw [(h.edges.map _).sum_eq, List.map_map]
  cases back with
  | false => rfl
  | true =>
    rw [if_pos rfl]
    induction Segs.closedEdges ps with
    | nil => rfl
    | cons e es ih =>
      rw [List.map_cons, List.map_cons, List.sum_cons, List.sum_cons, ih, neg_add]
      congr 1
      exact cross_swap e.1 e.2 x z

/-- The same shape encloses the same points. -/
theorem SameShape.encloses {rule : FillRule} {as as' : List (List (Segs.Pt ℝ))} (h : SameShape rule as as') (x z : ℝ) :
    InShape rule (as'.map fun ps => windPolyline ps x z).sum ↔ InShape rule (as.map fun ps => windPolyline ps x z).sum := by
  obtain ⟨all, l, hp, hl⟩ := h
  rw [← (hp.map _).sum_eq]
  clear hp
  cases rule with
  | nonZero =>
    have : (l.map fun ps => windPolyline ps x z).sum = if all then - (as.map fun ps => windPolyline ps x z).sum else (as.map fun ps => windPolyline ps x z).sum := by
      induction hl with
      | nil => simp
      | cons h _ ih =>
        obtain ⟨back, hr, hb⟩ := h
        rw [List.map_cons, List.map_cons, List.sum_cons, List.sum_cons, ih, hr.wind, hb rfl]
        cases all
        · rfl
        · simp only [if_true]; ring
    rw [this]
    cases all <;> simp [InShape]
  | evenOdd =>
    have : Odd (l.map fun ps => windPolyline ps x z).sum ↔ Odd (as.map fun ps => windPolyline ps x z).sum := by
      induction hl with
      | nil => simp
      | cons h _ ih =>
        obtain ⟨back, hr, -⟩ := h
        rw [List.map_cons, List.map_cons, List.sum_cons, List.sum_cons, Int.odd_add', Int.odd_add', hr.wind]
        rw [← Int.not_odd_iff_even, ← Int.not_odd_iff_even, ih]
        cases back <;> simp
    exact this

/-! ## The result -/

variable {cfg : Cfg}

/-- **C101.** A boolean operation on polygons in general position returns, and so does the operation on the same shapes written down in another way; the region of the result is
the same, away from the edges. -/
theorem C101_redrawn {as as' bs bs' : List (List (Segs.Pt ℝ))} (again again' : Nat → Nat → Bool) (he : 0 < cfg.eps) (hpp : Searches cfg.pp) (hf : OneFirst cfg.first)
    (hP : LoosePolygons cfg.eps (as ++ bs)) (hB : BeyondCorners cfg (as ++ bs)) (rule : FillRule) (op : Op) (ha : SameShape rule as as') (hb : SameShape rule bs bs') :
    ∃ N out out', (∀ fuel, N ≤ fuel → polylineOpPaths cfg again as bs rule op fuel = .ok out ∧ polylineOpPaths cfg again' as' bs' rule op fuel = .ok out') ∧
      RightPaths cfg.eps as bs rule op out ∧ ∀ x z, Distant cfg.eps (as ++ bs) x z → windOut out' x z = windOut out x z := by
  have hs := ha.lines.append hb.lines
  obtain ⟨N, out, h1, h2⟩ := C94_crossing (cfg := cfg) again he hpp hf hP hB rule op
  obtain ⟨N', out', h1', h2'⟩ := C94_crossing (cfg := cfg) again' he hpp hf (hs.loose hP) (hs.beyond hB) rule op
  refine ⟨max N N', out, out', fun fuel h => ⟨h1 fuel (by omega), h1' fuel (by omega)⟩, h2, fun x z hx => ?_⟩
  have k := h2.winding x z hx
  have k' := h2'.winding x z (hs.distant hx)
  have e : Combine op (InShape rule (as'.map fun ps => windPolyline ps x z).sum) (InShape rule (bs'.map fun ps => windPolyline ps x z).sum) ↔
      Combine op (InShape rule (as.map fun ps => windPolyline ps x z).sum) (InShape rule (bs.map fun ps => windPolyline ps x z).sum) := by
    rw [propext (ha.encloses x z), propext (hb.encloses x z)]
  by_cases hc : Combine op (InShape rule (as.map fun ps => windPolyline ps x z).sum) (InShape rule (bs.map fun ps => windPolyline ps x z).sum)
  · rw [k.1 hc, k'.1 (e.2 hc)]
  · rw [k.2 hc, k'.2 fun h => hc (e.1 h)]

theorem SameLines.proper {pss pss' : List (List (Segs.Pt ℝ))} (h : SameLines pss pss') (hp : Proper pss) : Proper pss' := by
  intro ps' h1 e h2
  obtain ⟨ps, k1, k2⟩ := h.edge ps' h1 e h2
  rcases k2 with k2 | k2
  · exact hp ps k1 e k2
  · exact (hp ps k1 _ k2).symm

theorem numbered_lines {n : Nat} {shapes shapes' : Fin n → List (List (Segs.Pt ℝ))} (h : ∀ i, SameLines (shapes i) (shapes' i)) :
    SameLines (polygons (numbered shapes)) (polygons (numbered shapes')) := by
  have e : ∀ {n : Nat} (g : Fin n → List (List (Segs.Pt ℝ))), polygons (numbered g) = (List.ofFn g).flatten := by
    intro n g
    unfold polygons numbered
    rw [List.flatMap_def, List.map_ofFn]
    rfl
  rw [e, e]
  clear e
  induction n with
  | zero => exact ⟨.refl _, by simp, by simp⟩
  | succ n ih =>
    rw [List.ofFn_succ, List.ofFn_succ, List.flatten_cons, List.flatten_cons]
    exact (h 0).append (ih fun i => h i.succ)

/-- **C101.** The same for every boolean combination `f` of any number of shapes, whether or not it contains the outside. -/
theorem C101_shapes {n : Nat} {shapes shapes' : Fin n → List (List (Segs.Pt ℝ))} (again again' : Nat → Nat → Bool) (rule : FillRule) (f : (Fin n → Prop) → Prop)
    (he : 0 < cfg.eps) (hpp : Searches cfg.pp) (hf : OneFirst cfg.first) (hp : Proper (polygons (numbered shapes)))
    (hP : LoosePolygons cfg.eps (polygons (numbered shapes))) (hB : BeyondCorners cfg (polygons (numbered shapes))) (hs : ∀ i, SameShape rule (shapes i) (shapes' i)) :
    ∃ N out out', (∀ fuel, N ≤ fuel → (fromPaths cfg counter (wanted rule f) (drawn (numbered shapes)) fuel).draw cfg again fuel = .ok out ∧
        (fromPaths cfg counter (wanted rule f) (drawn (numbered shapes')) fuel).draw cfg again' fuel = .ok out') ∧
      ∀ x z, Distant cfg.eps (polygons (numbered shapes)) x z → windOut out' x z = windOut out x z := by
  have hl := numbered_lines fun i => (hs i).lines
  have e : ∀ x z, (f fun i => InPolygons rule (shapes' i) x z) ↔ f fun i => InPolygons rule (shapes i) x z := by
    intro x z
    have : (fun i => InPolygons rule (shapes' i) x z) = fun i => InPolygons rule (shapes i) x z := funext fun i => propext ((hs i).encloses x z)
    rw [this]
  by_cases h0 : f fun _ => False
  · obtain ⟨N, out, h1, h2⟩ := C100_shapes (cfg := cfg) shapes again rule f h0 he hpp hf hp hP hB
    obtain ⟨N', out', h1', h2'⟩ := C100_shapes (cfg := cfg) shapes' again' rule f h0 he hpp hf (hl.proper hp) (hl.loose hP) (hl.beyond hB)
    refine ⟨max N N', out, out', fun fuel h => ⟨h1 fuel (by omega), h1' fuel (by omega)⟩, fun x z hx => ?_⟩
    have k := h2.winding x z hx
    have k' := h2'.winding x z (hl.distant hx)
    by_cases hc : f fun i => InPolygons rule (shapes i) x z
    · rw [k.1 hc, k'.1 ((e x z).2 hc)]
    · rw [k.2 hc, k'.2 fun h => hc ((e x z).1 h)]
  · obtain ⟨N, out, h1, h2⟩ := C97_polygons (cfg := cfg) shapes again rule f h0 he hpp hf hp hP hB
    obtain ⟨N', out', h1', h2'⟩ := C97_polygons (cfg := cfg) shapes' again' rule f h0 he hpp hf (hl.proper hp) (hl.loose hP) (hl.beyond hB)
    refine ⟨max N N', out, out', fun fuel h => ⟨h1 fuel (by omega), h1' fuel (by omega)⟩, fun x z hx => ?_⟩
    have k := h2.winding x z hx
    have k' := h2'.winding x z (hl.distant hx)
    by_cases hc : f fun i => InPolygons rule (shapes i) x z
    · rw [k.1 hc, k'.1 ((e x z).2 hc)]
    · rw [k.2 hc, k'.2 fun h => hc ((e x z).1 h)]

/-! ## Example -/

/-- The triangles that cross; the first from its second vertex on, the second in the other direction. The intersection still winds around `(0, 7)` and not around `(0, 2)`. -/
theorem Cross.redrawn : ∃ N out out',
    (∀ fuel, N ≤ fuel → polylineOpPaths Cross.cfg' (fun _ _ => true) [Cross.up] [Cross.upsideDown] .nonZero .intersection fuel = .ok out ∧
      polylineOpPaths Cross.cfg' (fun _ _ => false) [Cross.up.rotate 1] [Cross.upsideDown.reverse] .nonZero .intersection fuel = .ok out') ∧
    windOut out 0 7 = 1 ∧ windOut out' 0 7 = 1 ∧ windOut out 0 2 = 0 ∧ windOut out' 0 2 = 0 := by
  obtain ⟨N, out, out', h1, hr, h2⟩ := C101_redrawn (cfg := Cross.cfg') (as := [Cross.up]) (bs := [Cross.upsideDown]) (as' := [Cross.up.rotate 1]) (bs' := [Cross.upsideDown.reverse])
    (fun _ _ => true) (fun _ _ => false) (by norm_num [Cross.cfg', Cross.cfg]) Ex.searches Cross.oneFirst Cross.loose Cross.beyond .nonZero .intersection
    ⟨false, _, .refl _, .cons ⟨false, ⟨1, rfl⟩, fun _ => rfl⟩ .nil⟩ ⟨true, _, .refl _, .cons ⟨true, ⟨0, by simp⟩, fun _ => rfl⟩ .nil⟩
  have a : windOut out 0 7 = 1 := by
    refine (hr.winding 0 7 (Cross.distant_middle (by simp))).1 ?_
    simp only [Combine, InShape, List.map_cons, List.map_nil, List.sum_cons, List.sum_nil, Cross.up_wind, Cross.down_wind]
    norm_num
  have b : windOut out 0 2 = 0 := by
    refine (hr.winding 0 2 (Cross.distant_middle (by simp))).2 ?_
    simp only [Combine, InShape, List.map_cons, List.map_nil, List.sum_cons, List.sum_nil, Cross.up_wind, Cross.down_wind]
    norm_num
  exact ⟨N, out, out', h1, a, (h2 0 7 (Cross.distant_middle (by simp))).trans a, b, (h2 0 2 (Cross.distant_middle (by simp))).trans b⟩

/-- With the non-zero rule the directions within one shape matter: a triangle drawn twice encloses `(0, 7)`, but not if the second copy goes in the other direction. -/
theorem C101_directions : InShape .nonZero (([Cross.up, Cross.up]).map fun ps => windPolyline ps 0 7).sum ∧
    ¬ InShape .nonZero (([Cross.up, Cross.up.reverse]).map fun ps => windPolyline ps 0 7).sum := by
  have hr : windPolyline Cross.up.reverse 0 7 = - windPolyline Cross.up 0 7 := (show Redrawn true Cross.up Cross.up.reverse from ⟨0, by simp⟩).wind 0 7
  constructor
  · simp only [InShape, List.map_cons, List.map_nil, List.sum_cons, List.sum_nil, Cross.up_wind]
    norm_num
  · simp [InShape, hr]

end Verif.Full
