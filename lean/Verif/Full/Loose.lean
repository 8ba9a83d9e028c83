import Verif.Full.General

/-!
# Straight segments and polygons in general position

A sufficient condition on the geometry alone for `General`.
-/

namespace Verif.Full
open Verif.Segs (Segments)
open Verif.Curve Verif.BinOp
set_option linter.unusedSectionVars false

variable {T : Type} {s : Segments ℝ} {tags : List T} {cfg : Cfg}

/-- The segments do not cross, and if they differ they are clearly apart somewhere. -/
def Quiet (eps : ℝ) (a b : Geom.Seg) : Prop := (LeftOf a b → ¬ LeftOf b a ∧ Separated eps a b) ∧ (LeftOf b a → ¬ LeftOf a b ∧ Separated eps b a)

/-- There is a chain of segments from one to the other of which every two neighbours meet near the height `t`. -/
def Chain (eps : ℝ) (s : Segments ℝ) (t : ℝ) : Nat → Nat → Prop := Relation.ReflTransGen fun i j => Has s t i ∧ Has s t j ∧ Meet eps t (segAt s i) (segAt s j)

/-- All segments that are not horizontal are straight lines, moderate and pairwise upright. Of two segments that are not quiet it is asked that they are
alone where they meet, and that at the height of an end they only meet if they have an end in common there. -/
structure Loose (eps : ℝ) (s : Segments ℝ) : Prop where
  line : ∀ i, Slanted s i → Line (segAt s i)
  moderate : ∀ i, Slanted s i → Moderate eps (segAt s i)
  upright : ∀ i j, Slanted s i → Slanted s j → Upright (segAt s i) (segAt s j)
  alone : ∀ i j k t, i ≠ j → Has s t i → Has s t j → Has s t k → ¬ Quiet eps (segAt s i) (segAt s j) → Chain eps s t i j →
    Meet eps t (segAt s i) (segAt s k) → k = i ∨ k = j
  ends : ∀ i j t, i ≠ j → ¬ Quiet eps (segAt s i) (segAt s j) → Vertex s t → Has s t i → Has s t j → Meet eps t (segAt s i) (segAt s j) →
    Share t (segAt s i) (segAt s j)

theorem Quiet.symm {eps : ℝ} {a b : Geom.Seg} (h : Quiet eps a b) : Quiet eps b a := ⟨h.2, h.1⟩

theorem Chain.symm {eps : ℝ} {t : ℝ} {i j : Nat} (h : Chain eps s t i j) : Chain eps s t j i := by
  unfold Chain at h ⊢
  induction h with
  | refl => exact Relation.ReflTransGen.refl
  | tail _ h2 ih => exact (Relation.ReflTransGen.single ⟨h2.2.1, h2.1, h2.2.2.symm⟩).trans ih

/-- The comparison tells quiet segments apart. -/
theorem calm_of_quiet (he : 0 < cfg.eps) (hsolve : Geom.FindsRoots cfg.solve) {i j : Nat} (li : Line (segAt s i)) (lj : Line (segAt s j))
    (mi : Moderate cfg.eps (segAt s i)) (mj : Moderate cfg.eps (segAt s j)) (uij : Upright (segAt s i) (segAt s j)) (uji : Upright (segAt s j) (segAt s i))
    (h : Quiet cfg.eps (segAt s i) (segAt s j)) : Calm cfg s i j := by
  have key : ∀ {i j : Nat}, Line (segAt s i) → Line (segAt s j) → Moderate cfg.eps (segAt s i) → Moderate cfg.eps (segAt s j) → Upright (segAt s i) (segAt s j) →
      (LeftOf (segAt s i) (segAt s j) → ¬ LeftOf (segAt s j) (segAt s i) ∧ Separated cfg.eps (segAt s i) (segAt s j)) → Parted cfg s i j := by
    intro i j li lj mi mj u h hl
    obtain ⟨h1, h2⟩ := lines_resolved hsolve he li lj mi mj u (h hl).2 (h hl).1
    refine ⟨(h hl).1, ?_⟩
    change (compare cfg.solve cfg.eps (cfg.eps / 2) cfg.eps cfg.first (segAt s) i j).orderAfter _ = _
    unfold compare
    split
    · exact h1
    · rw [C09_flip_order_after, h2]; rfl
  exact ⟨key li lj mi mj uij h.1, key lj li mj mi uji h.2⟩

/-- Where straight segments are not told apart they meet. -/
theorem blurred_meet (h : Arena s tags) (he : 0 < cfg.eps) (hsolve : Geom.FindsRoots cfg.solve) (hf : OneFirst cfg.first)
    (hline : ∀ i, Slanted s i → Line (segAt s i)) (hmod : ∀ i, Slanted s i → Moderate cfg.eps (segAt s i))
    (hup : ∀ i j, Slanted s i → Slanted s j → Upright (segAt s i) (segAt s j)) {i j : Nat} {t : ℝ} (hne : i ≠ j) (hB : Blurred cfg s t i j) :
    Meet cfg.eps t (segAt s i) (segAt s j) := by
  obtain ⟨hi, hj, n1, n2⟩ := hB
  have hc := compare_spec hsolve (by linarith : 0 < cfg.eps / 2) (by linarith : cfg.eps / 2 ≤ cfg.eps) he cfg.first (segAt s) i j (hi.1.down h) (hj.1.down h)
    ((max_le hi.2.1 hj.2.1).trans (le_min hi.2.2 hj.2.2))
  change Compared _ _ ((env cfg s).cmp i j) at hc
  unfold Told at n1 n2
  rw [compare_flip hf hne] at n2
  push Not at n1 n2
  obtain ⟨p, hp, p1, p2, p3⟩ := n1
  obtain ⟨p', hp', q1, q2, q3⟩ := n2
  rw [Sweep.iter_flip] at hp'
  obtain ⟨q, hq, rfl⟩ := List.mem_map.1 hp'
  dsimp only at q1 q2 q3
  have q3' : q.order ≠ .right := fun h0 => q3 (by rw [h0]; rfl)
  obtain ⟨r, hr, r1, r2, r3⟩ : ∃ r ∈ ((env cfg s).cmp i j).iter, r.lo ≤ t ∧ t ≤ r.hi ∧ r.order = .ish := by
    cases h1 : p.order with
    | left => exact absurd h1 p3
    | ish => exact ⟨p, hp, p1, p2, h1⟩
    | right =>
      cases h2 : q.order with
      | right => exact absurd h2 q3'
      | ish => exact ⟨q, hq, q1, q2, h2⟩
      | left =>
        have g1 := (hc.right p hp t p1 p2).2 h1
        have g2 := (hc.right q hq t q1 q2).1 h2
        exact absurd (g1.trans g2) (lt_irrefl _)
  change r ∈ (compare cfg.solve cfg.eps (cfg.eps / 2) cfg.eps cfg.first (segAt s) i j).iter at hr
  unfold compare at hr
  by_cases hfi : cfg.first i j = true
  · rw [if_pos hfi] at hr
    exact ish_meet hsolve he (hline i hi.1) (hline j hj.1) (hmod i hi.1) (hmod j hj.1) (hup i j hi.1 hj.1) hi.2 hj.2 hr r3 r1 r2
  · rw [if_neg hfi, Sweep.iter_flip] at hr
    obtain ⟨q, hq, rfl⟩ := List.mem_map.1 hr
    exact (ish_meet hsolve he (hline j hj.1) (hline i hi.1) (hmod j hj.1) (hmod i hi.1) (hup j i hj.1 hi.1) hj.2 hi.2 hq (Sweep.Order.flip_ish.1 r3) r1 r2).symm

/-- What the comparison says is so. -/
theorem told_lt (h : Arena s tags) (he : 0 < cfg.eps) (hsolve : Geom.FindsRoots cfg.solve) {i j : Nat} {t : ℝ} (hi : Has s t i) (hj : Has s t j)
    (ht : Told cfg s t i j) : (segAt s i).atY t < (segAt s j).atY t :=
  (env_comparable h he hsolve).sure_lt ((sure_iff h).2 ⟨hi, hj, ht⟩)

theorem general_of_loose (h : Arena s tags) (he : 0 < cfg.eps) (hsolve : Geom.FindsRoots cfg.solve) (hf : OneFirst cfg.first) (hL : Loose cfg.eps s) :
    General cfg s := by
  have hK := env_comparable (cfg := cfg) h he hsolve
  have meet : ∀ {i j t}, i ≠ j → Blurred cfg s t i j → Meet cfg.eps t (segAt s i) (segAt s j) :=
    fun hne hB => blurred_meet h he hsolve hf hL.line hL.moderate hL.upright hne hB
  have loud : ∀ {i j}, Slanted s i → Slanted s j → ¬ Calm cfg s i j → ¬ Quiet cfg.eps (segAt s i) (segAt s j) := fun hi hj hw hq =>
    hw (calm_of_quiet he hsolve (hL.line _ hi) (hL.line _ hj) (hL.moderate _ hi) (hL.moderate _ hj) (hL.upright _ _ hi hj) (hL.upright _ _ hj hi) hq)
  have chain : ∀ {t a b}, Has s t a → Has s t b → Cluster cfg s t a b → Chain cfg.eps s t a b := by
    intro t a b ha hb hab
    have := Sweep.linked_chain hK (M := fun a b => Meet cfg.eps t (segAt s a) (segAt s b)) (fun _ _ h => h.symm)
      (fun a b ha hb hne hn => meet hne (blurred_of_near h ((on_iff h).1 ha) ((on_iff h).1 hb) hn))
      (fun a x c h1 h2 h3 => meet_between he (hL.line a ((on_iff h).1 h1.1).1) (hL.line c ((on_iff h).1 h2.2.1).1) h1.1.2 h1.2.1.2 h2.2.1.2 (hK.sure_lt h1).le
        (hK.sure_lt h2).le h3) ((on_iff h).2 ha) ((on_iff h).2 hb) ((linked_iff h).2 hab)
    refine Relation.ReflTransGen.mono (fun a b hab => ?_) _ _ this
    rw [on_iff h, on_iff h] at hab
    exact hab
  refine ⟨?_, ?_⟩
  · intro i j k t hne hi hj hw h1 h2
    have hq := loud hi.1 hj.1 hw
    have hc := chain hi hj h1
    have hk : Has s t k := by
      rcases Relation.ReflTransGen.cases_tail h2.1 with h0 | ⟨x, _, h0⟩
      · rw [h0]; exact hi
      · exact h0.2.1
    refine pair_chain ?_ ?_ (chain hi hk h2)
    · rintro x ⟨_, hx, hm⟩
      exact hL.alone i j x t hne hi hj hx hq hc hm
    · rintro x ⟨_, hx, hm⟩
      exact (hL.alone j i x t hne.symm hj hi hx (fun h => hq h.symm) hc.symm hm).symm
  · intro i j t hne hw hv b
    exact hL.ends i j t hne (loud b.1.1 b.2.1.1 hw) hv b.1 b.2.1 (meet hne b)

/-- All points of slanted segments that are at most `eps` higher or lower than the point are at least `eps` to the left or at least `eps` to the right. -/
def Off (eps : ℝ) (s : Segments ℝ) (x z : ℝ) : Prop := ∀ i, Has s z i →
  (∀ y, |y - z| ≤ eps → (segAt s i).start.y ≤ y → y ≤ (segAt s i).stop.y → (segAt s i).atY y ≤ x - eps) ∨
  (∀ y, |y - z| ≤ eps → (segAt s i).start.y ≤ y → y ≤ (segAt s i).stop.y → x + eps ≤ (segAt s i).atY y)

theorem Off.away (he : 0 < cfg.eps) {x z : ℝ} (h : Off cfg.eps s x z) : Away cfg s x z := by
  intro a ha h1 h2
  rcases h a ⟨⟨ha, lt_of_le_of_lt h1 h2⟩, h1, h2.le⟩ with g | g
  · left; intro y hy; exact g y hy
  · right; intro y hy; exact g y hy

theorem Off.beside (h : Arena s tags) (he : 0 < cfg.eps) (hsolve : Geom.FindsRoots cfg.solve) (hf : OneFirst cfg.first) (hL : Loose cfg.eps s) {x z : ℝ}
    (ho : Off cfg.eps s x z) : Beside cfg s x z := by
  intro i j hne _ hB hlt
  have hz : |z - z| ≤ cfg.eps := by rw [sub_self, abs_zero]; linarith
  obtain ⟨y0, y1, h1, h2, h3, h4, h5⟩ := blurred_meet h he hsolve hf hL.line hL.moderate hL.upright hne hB
  rw [abs_le] at h5
  rcases ho i hB.1 with g | g
  · rcases ho j hB.2.1 with g' | g'
    · have := g' z hz hB.2.1.2.1 hB.2.1.2.2
      linarith
    · have k1 := g y0 h3 h1.1 h1.2
      have k2 := g' y1 h4 h2.1 h2.2
      linarith
  · have := g z hz hB.1.2.1 hB.1.2.2
    linarith

/-! ## Polygons -/

/-- All edges of the polygons, in order. -/
def edges (pss : List (List (Segs.Pt ℝ))) : List (Segs.Pt ℝ × Segs.Pt ℝ) := pss.flatMap Segs.closedEdges

open Classical in
/-- The edge, going down. -/
noncomputable def down (e : Segs.Pt ℝ × Segs.Pt ℝ) : Geom.Seg := if e.1.y < e.2.y then .line (pt e.1) (pt e.2) else .line (pt e.2) (pt e.1)

/-- `g` is the edge number `i`; it is not horizontal, and the height `t` is in its range. -/
def EdgeAt (pss : List (List (Segs.Pt ℝ))) (t : ℝ) (i : Nat) (g : Geom.Seg) : Prop :=
  ∃ e, (edges pss)[i]? = some e ∧ e.1.y ≠ e.2.y ∧ g = down e ∧ g.start.y ≤ t ∧ t ≤ g.stop.y

/-- Some polygon has a vertex at the height `t`. -/
def VertexAt (pss : List (List (Segs.Pt ℝ))) (t : ℝ) : Prop := ∃ ps ∈ pss, ∃ p ∈ ps, p.y = t

/-- There is a chain of edges from one to the other of which every two neighbours meet near the height `t`. -/
def EdgeChain (eps : ℝ) (pss : List (List (Segs.Pt ℝ))) (t : ℝ) : Nat → Nat → Prop :=
  Relation.ReflTransGen fun i j => ∃ a b, EdgeAt pss t i a ∧ EdgeAt pss t j b ∧ Meet eps t a b

/-- Polygons in general position: two edges that cross, or that differ but are nowhere clearly apart, are alone where they meet, and at the height of a
vertex they only meet if they have it in common. Nothing is asked of other edges: they may share vertices, touch and coincide. -/
structure LoosePolygons (eps : ℝ) (pss : List (List (Segs.Pt ℝ))) : Prop where
  moderate : ∀ g, Edge pss g → Moderate eps g
  upright : ∀ g h, Edge pss g → Edge pss h → Upright g h
  alone : ∀ i j k a b c t, i ≠ j → EdgeAt pss t i a → EdgeAt pss t j b → EdgeAt pss t k c → ¬ Quiet eps a b → EdgeChain eps pss t i j → Meet eps t a c →
    k = i ∨ k = j
  ends : ∀ i j a b t, i ≠ j → ¬ Quiet eps a b → VertexAt pss t → EdgeAt pss t i a → EdgeAt pss t j b → Meet eps t a b → Share t a b

theorem EdgeAt.unique {pss : List (List (Segs.Pt ℝ))} {t : ℝ} {i : Nat} {a b : Geom.Seg} (ha : EdgeAt pss t i a) (hb : EdgeAt pss t i b) : a = b := by
  obtain ⟨e, h1, -, h2, -⟩ := ha
  obtain ⟨e', h1', -, h2', -⟩ := hb
  rw [h1, Option.some.injEq] at h1'
  rw [h2, h2', h1']

/-- If edges that are not quiet meet, the first two of a chain do. -/
theorem EdgeChain.first {eps : ℝ} {pss : List (List (Segs.Pt ℝ))} {t : ℝ} {i j : Nat} (h : EdgeChain eps pss t i j) (hne : i ≠ j) :
    ∃ k a b, k ≠ i ∧ EdgeAt pss t i a ∧ EdgeAt pss t k b ∧ Meet eps t a b ∧ EdgeChain eps pss t k j := by
  unfold EdgeChain at h
  induction h using Relation.ReflTransGen.head_induction_on with
  | refl => exact absurd rfl hne
  | head h1 h2 ih =>
    rename_i x z
    by_cases hxz : z = x
    · subst hxz; exact ih hne
    · obtain ⟨a, b, g1, g2, g3⟩ := h1
      exact ⟨z, a, b, hxz, g1, g2, g3, h2⟩

/-- Polygons of which no three edges meet in one place are in general position, if at the heights of vertices only those meet that have it in common. -/
theorem LoosePolygons.of_pairs {eps : ℝ} {pss : List (List (Segs.Pt ℝ))} (moderate : ∀ g, Edge pss g → Moderate eps g)
    (upright : ∀ g h, Edge pss g → Edge pss h → Upright g h)
    (pairs : ∀ i j k a b c t, i ≠ j → j ≠ k → i ≠ k → EdgeAt pss t i a → EdgeAt pss t j b → EdgeAt pss t k c → Meet eps t a b → ¬ Meet eps t b c)
    (ends : ∀ i j a b t, i ≠ j → VertexAt pss t → EdgeAt pss t i a → EdgeAt pss t j b → Meet eps t a b → Share t a b) : LoosePolygons eps pss := by
  refine ⟨moderate, upright, ?_, fun i j a b t hne _ hv ha hb hm => ends i j a b t hne hv ha hb hm⟩
  intro i j k a b c t hne ha hb hc _ hch hm
  by_contra hn
  rw [not_or] at hn
  -- the first of the chain is `k`, and the chain ends there
  obtain ⟨x, a', d, h1, h2, h3, h4, h5⟩ := hch.first hne
  obtain rfl := ha.unique h2
  by_cases hxk : x = k
  · subst hxk
    obtain ⟨z, d', f, k1, k2, k3, k4, -⟩ := h5.first hn.2
    obtain rfl := h3.unique k2
    by_cases hzi : z = i
    · -- a chain that goes back and forth
      have key : ∀ w, EdgeChain eps pss t i w → w = i ∨ w = x := by
        intro w hw
        unfold EdgeChain at hw
        refine pair_chain ?_ ?_ hw
        · rintro u ⟨p, q, hp, hq, hpq⟩
          obtain rfl := ha.unique hp
          by_cases e1 : u = i
          · exact .inl e1
          by_cases e2 : u = x
          · exact .inr e2
          exact absurd hpq (pairs x i u _ _ _ t h1 (Ne.symm e1) (Ne.symm e2) h3 ha hq h4.symm)
        · rintro u ⟨p, q, hp, hq, hpq⟩
          obtain rfl := h3.unique hp
          by_cases e1 : u = i
          · exact .inl e1
          by_cases e2 : u = x
          · exact .inr e2
          exact absurd hpq (pairs i x u _ _ _ t h1.symm (Ne.symm e2) (Ne.symm e1) ha h3 hq h4)
      rcases key j hch with h | h
      · exact hne h.symm
      · exact hn.2 h.symm
    · exact pairs i x z _ _ _ t h1.symm k1.symm (Ne.symm hzi) ha h3 k3 h4 k4
  · exact pairs x i k _ _ _ t h1 (Ne.symm hn.1) hxk h3 ha hc h4.symm hm

theorem edges_append (as bs : List (List (Segs.Pt ℝ))) : edges (as ++ bs) = edges as ++ edges bs := by simp [edges]

theorem seg_edge {as bs : List (List (Segs.Pt ℝ))} {i : Nat} (h : i < (buildPolylines as bs).1.len) :
    ∃ e, (edges (as ++ bs))[i]? = some e ∧ (segAt (buildPolylines as bs).1 i = .line (pt e.1) (pt e.2) ∨ segAt (buildPolylines as bs).1 i = .line (pt e.2) (pt e.1)) := by
  have hm := buildPolylines_made as bs
  have hlist : ((as.flatMap fun ps => (Segs.closedEdges ps).map (Segs.edgeOrigin 0 1)).map fun o => (o, true)) ++
      ((bs.flatMap fun ps => (Segs.closedEdges ps).map (Segs.edgeOrigin 0 1)).map fun o => (o, false)) =
      (edges as).map (fun e => (Segs.edgeOrigin 0 1 e, true)) ++ (edges bs).map (fun e => (Segs.edgeOrigin 0 1 e, false)) := by
    simp only [edges, List.map_flatMap, List.map_map]
    rfl
  rw [hlist] at hm
  have hlt := h
  rw [made_len hm, List.length_append, List.length_map, List.length_map] at hlt
  have hlt' : i < (edges (as ++ bs)).length := by rw [edges_append, List.length_append]; exact hlt
  refine ⟨(edges (as ++ bs))[i], List.getElem?_eq_getElem hlt', ?_⟩
  obtain ⟨e, he⟩ : ∃ e, (edges (as ++ bs))[i]? = some e := ⟨_, List.getElem?_eq_getElem hlt'⟩
  have he' : (edges (as ++ bs))[i] = e := by
    have := List.getElem?_eq_getElem hlt'
    rw [he] at this; exact (Option.some.inj this).symm
  rw [he']
  obtain ⟨b, hb⟩ : ∃ b, ((edges as).map (fun e => (Segs.edgeOrigin 0 1 e, true)) ++ (edges bs).map (fun e => (Segs.edgeOrigin 0 1 e, false)))[i]? =
      some (Segs.edgeOrigin 0 1 e, b) := by
    rw [edges_append, List.getElem?_append] at he
    rw [List.getElem?_append, List.length_map]
    split at he
    · rename_i h1
      rw [if_pos h1]
      exact ⟨true, by rw [List.getElem?_map, he]; rfl⟩
    · rename_i h1
      rw [if_neg h1]
      exact ⟨false, by rw [List.getElem?_map, he]; rfl⟩
  obtain ⟨g, o, h1, -, h3, -⟩ := made_get hm hb
  have hseg : segAt (buildPolylines as bs).1 i = seg g := by unfold segAt; rw [h1]
  rw [hseg]
  have h3 : Segs.Seg.line e.1 e.2 = if o = true then g else g.rev := h3
  cases o with
  | true =>
    rw [if_pos rfl] at h3
    rw [← h3]; exact Or.inl rfl
  | false =>
    rw [if_neg (by simp)] at h3
    have : g = .line e.2 e.1 := by rw [← rev_rev g, ← h3]; rfl
    rw [this]; exact Or.inr rfl

theorem has_edge {as bs : List (List (Segs.Pt ℝ))} {t : ℝ} {i : Nat} (h : Has (buildPolylines as bs).1 t i) :
    EdgeAt (as ++ bs) t i (segAt (buildPolylines as bs).1 i) := by
  obtain ⟨e, h1, h2⟩ := seg_edge h.1.1
  obtain ⟨⟨_, hlt⟩, hr⟩ := h
  refine ⟨e, h1, ?_, ?_, hr⟩
  · rintro h0
    rcases h2 with h2 | h2 <;> rw [h2] at hlt <;> simp [Geom.Seg.start, Geom.Seg.stop, pt, h0] at hlt
  · unfold down
    rcases h2 with h2 | h2 <;> rw [h2] at hlt ⊢
    · rw [if_pos (show e.1.y < e.2.y from hlt)]
    · rw [if_neg (not_lt.2 (le_of_lt (show e.2.y < e.1.y from hlt)))]

theorem edges_mem {pss : List (List (Segs.Pt ℝ))} {e : Segs.Pt ℝ × Segs.Pt ℝ} (h : e ∈ edges pss) : ∃ ps ∈ pss, e.1 ∈ ps ∧ e.2 ∈ ps := by
  obtain ⟨ps, h1, h2⟩ := List.mem_flatMap.1 h
  refine ⟨ps, h1, ?_⟩
  unfold Segs.closedEdges at h2
  split at h2
  · simp at h2
  · obtain ⟨a, b⟩ := e
    have := List.of_mem_zip h2
    refine ⟨this.1, ?_⟩
    rcases List.mem_append.1 this.2 with g | g
    · exact List.mem_of_mem_tail g
    · exact List.mem_of_mem_take g

theorem vertex_at {as bs : List (List (Segs.Pt ℝ))} {t : ℝ} (h : Vertex (buildPolylines as bs).1 t) : VertexAt (as ++ bs) t := by
  obtain ⟨i, hi, h⟩ := h
  obtain ⟨e, h1, h2⟩ := seg_edge hi
  obtain ⟨ps, p1, p2, p3⟩ := edges_mem (List.mem_of_getElem? h1)
  rcases h2 with h2 | h2 <;> rw [h2] at h <;> rcases h with h | h
  · exact ⟨ps, p1, e.1, p2, h⟩
  · exact ⟨ps, p1, e.2, p3, h⟩
  · exact ⟨ps, p1, e.2, p3, h⟩
  · exact ⟨ps, p1, e.1, p2, h⟩

theorem LoosePolygons.loose {eps : ℝ} {as bs : List (List (Segs.Pt ℝ))} (h : LoosePolygons eps (as ++ bs)) : Loose eps (buildPolylines as bs).1 :=
  ⟨fun _ hi => (slanted_edge hi).line, fun _ hi => h.moderate _ (slanted_edge hi), fun _ _ hi hj => h.upright _ _ (slanted_edge hi) (slanted_edge hj),
   fun _ _ _ _ n hi hj hk hq hc hm => h.alone _ _ _ _ _ _ _ n (has_edge hi) (has_edge hj) (has_edge hk) hq
    (Relation.ReflTransGen.mono (fun _ _ h => ⟨_, _, has_edge h.1, has_edge h.2.1, h.2.2⟩) _ _ hc) hm,
   fun _ _ _ n hq hv hi hj => h.ends _ _ _ _ _ n hq (vertex_at hv) (has_edge hi) (has_edge hj)⟩

/-- Polygons whose edges do not cross and are clearly apart where they differ are in general position. -/
theorem Polygons.loose {eps : ℝ} {pss : List (List (Segs.Pt ℝ))} (h : Polygons eps pss) : LoosePolygons eps pss := by
  have edge : ∀ {t i g}, EdgeAt pss t i g → Edge pss g := by
    rintro t i g ⟨e, h1, h2, h3, -⟩
    obtain ⟨ps, hps, he⟩ := List.mem_flatMap.1 (List.mem_of_getElem? h1)
    refine ⟨ps, hps, e, he, ?_⟩
    unfold down at h3
    split at h3
    · rename_i hlt
      exact ⟨.inl h3, by rw [h3]; exact hlt⟩
    · rename_i hlt
      exact ⟨.inr h3, by rw [h3]; exact lt_of_le_of_ne (not_lt.1 hlt) h2.symm⟩
  have quiet : ∀ {a b}, Edge pss a → Edge pss b → Quiet eps a b := fun ha hb =>
    ⟨fun hl => ⟨h.nocross _ _ ha hb hl, h.separated _ _ ha hb hl⟩, fun hl => ⟨h.nocross _ _ hb ha hl, h.separated _ _ hb ha hl⟩⟩
  exact ⟨h.moderate, h.upright, fun i j k a b c t _ ha hb _ hq => absurd (quiet (edge ha) (edge hb)) hq,
    fun i j a b t _ hq _ ha hb => absurd (quiet (edge ha) (edge hb)) hq⟩

/-- All points of edges that are at most `eps` higher or lower than the point are at least `eps` to the left or at least `eps` to the right. -/
def OffEdges (eps : ℝ) (pss : List (List (Segs.Pt ℝ))) (x z : ℝ) : Prop := ∀ i g, EdgeAt pss z i g →
  (∀ y, |y - z| ≤ eps → g.start.y ≤ y → y ≤ g.stop.y → g.atY y ≤ x - eps) ∨ (∀ y, |y - z| ≤ eps → g.start.y ≤ y → y ≤ g.stop.y → x + eps ≤ g.atY y)

/-- C81 for polygons whose edges may cross, in general position. -/
theorem C81_polygons {as bs : List (List (Segs.Pt ℝ))} (he : 0 < cfg.eps) (hpp : Searches cfg.pp) (hsolve : Geom.FindsRoots cfg.solve)
    (hf : OneFirst cfg.first) (hP : LoosePolygons cfg.eps (as ++ bs)) (rule : FillRule) (op : Op) :
    ∃ N t' cs, (∀ fuel, N ≤ fuel → polylineOp cfg as bs rule op fuel = .ok (buildPolylines as bs).1 t' cs) ∧
      ∀ x z, OffEdges cfg.eps (as ++ bs) x z →
        (Combine op (InShape rule (as.map fun ps => windPolyline ps x z).sum) (InShape rule (bs.map fun ps => windPolyline ps x z).sum) →
          windContours (buildPolylines as bs).1 t' cs x z = 1) ∧
        (¬ Combine op (InShape rule (as.map fun ps => windPolyline ps x z).sum) (InShape rule (bs.map fun ps => windPolyline ps x z).sum) →
          windContours (buildPolylines as bs).1 t' cs x z = 0) := by
  have ha := buildPolylines_arena as bs
  obtain ⟨N, t', cs, h1, h2⟩ := C81_polylines he hpp hsolve hf (general_of_loose ha he hsolve hf hP.loose) rule op
  refine ⟨N, t', cs, h1, fun x z hx => ?_⟩
  have ho : Off cfg.eps (buildPolylines as bs).1 x z := fun i hi => hx i _ (has_edge hi)
  exact h2 x z (ho.away he) (ho.beside ha he hsolve hf hP.loose)

end Verif.Full
