import Verif.Full.Curved

/-!
# Laws of the boolean operations, end to end, for curves

What the returned paths of several operations on the same paths have to do with each other, at all points away from the input. Conditions on the geometry of the
pieces are inherited by the pieces of fewer paths, and by the same pieces in another order.
-/

namespace Verif.Full
open Verif.Segs (Segments PathEl PathSeg Origin)
open Verif.Curve Verif.BinOp
set_option linter.unusedSectionVars false

/-! ## Specification -/

/-- The operation on paths returns the contours `out`. -/
def Gives (cfg : Cfg) (again : Nat → Nat → Bool) (a b : List (PathEl ℝ)) (rule : FillRule) (op : Op) (out : List OutContour) : Prop :=
  ∃ N, ∀ fuel, N ≤ fuel → binaryOpPaths cfg again a b rule op fuel = .ok out

/-- The point is in the shape that the path encloses. -/
def Fills (rule : FillRule) (a : List (PathEl ℝ)) (x z : ℝ) : Prop := InShape rule (windPath a x z)

/-! ## Some of the pieces, in another order -/

/-- The segments of `s'` are some of the segments of `s`: the segment `i` of `s'` is the segment `π i` of `s` (up to the direction of segments that go nowhere). -/
structure Part (s s' : Segments ℝ) (π : Nat → Nat) : Prop where
  lt : ∀ i < s'.len, π i < s.len
  inj : ∀ i < s'.len, ∀ j < s'.len, π i = π j → i = j
  start : ∀ i < s'.len, (segAt s' i).start = (segAt s (π i)).start
  stop : ∀ i < s'.len, (segAt s' i).stop = (segAt s (π i)).stop
  slanted : ∀ i < s'.len, (segAt s' i).start.y < (segAt s' i).stop.y → segAt s' i = segAt s (π i)
  on : ∀ i < s'.len, ∀ p, (segAt s' i).On p → (segAt s (π i)).On p
  split : ∀ i < s'.len, (source s').split i = (source s).split (π i)

theorem rev_on {g : Segs.Seg ℝ} {p : Geom.Pt} (h : (seg g.rev).On p) : (seg g).On p := by
  cases g with
  | line a b =>
    obtain ⟨t, t0, t1, rfl⟩ := h
    refine ⟨1 - t, by linarith, by linarith, ?_⟩
    ext <;> simp only [Geom.Pt.affine] <;> ring
  | cubic a b c d =>
    obtain ⟨t, t0, t1, rfl⟩ := h
    refine ⟨1 - t, by linarith, by linarith, ?_⟩
    ext <;> simp only [Geom.Cubic.eval, Geom.bez3] <;> ring

theorem le_antisymm_pt {p q : Segs.Pt ℝ} (h : p.le q) (h' : q.le p) : p = q := by
  rcases h with h | h
  · rcases h' with h' | h'
    · exfalso
      rcases h with h | ⟨h1, h2⟩ <;> rcases h' with h' | ⟨h3, h4⟩ <;> linarith
    · exact h'.symm
  · exact h

theorem rev_rev' (g : Segs.Seg ℝ) : g.rev.rev = g := by cases g <;> rfl

/-- The segment is determined by the piece of the input that it comes from. -/
theorem origin_seg {g g' : Segs.Seg ℝ} {b b' : Bool} (h : g.start.le g.stop) (h' : g'.start.le g'.stop) (e : (if b then g else g.rev) = (if b' then g' else g'.rev)) :
    g = g' ∨ (g = g'.rev ∧ g'.start = g'.stop) := by
  have key : g = g' ∨ g = g'.rev := by
    cases b <;> cases b' <;> simp only [if_true, if_false, Bool.false_eq_true] at e
    · left; rw [← rev_rev' g, e, rev_rev']
    · right; rw [← rev_rev' g, e]
    · right; exact e
    · left; exact e
  rcases key with e | e
  · exact .inl e
  · refine .inr ⟨e, le_antisymm_pt h' ?_⟩
    rw [e, rev_start, rev_stop] at h
    exact h

variable {T : Type}

/-- Of two lists of pieces one of which contains all pieces of the other one. -/
theorem part_of_origins {s s' : Segments ℝ} {tags tags' : List T} {os os' : List (Origin ℝ × T)} (ha : Arena s tags) (ha' : Arena s' tags') (hm : Made s tags os)
    (hm' : Made s' tags' os') {π : Nat → Nat} (hinj : ∀ i < os'.length, ∀ j < os'.length, π i = π j → i = j)
    (hget : ∀ i < os'.length, (os[π i]?).map (fun o => o.1) = (os'[i]?).map (fun o => o.1)) : Part s s' π := by
  have hl' := made_len hm'
  have key : ∀ i < s'.len, π i < s.len ∧ ∃ g g' : Segs.Seg ℝ, segAt s (π i) = seg g ∧ segAt s' i = seg g' ∧ (g' = g ∨ (g' = g.rev ∧ g.start = g.stop)) ∧
      (source s').split i = (source s).split (π i) := by
    intro i hi
    rw [hl'] at hi
    have h0 := hget i hi
    obtain ⟨o', ho'⟩ : ∃ o', os'[i]? = some o' := ⟨_, List.getElem?_eq_getElem hi⟩
    rw [ho', Option.map_some] at h0
    obtain ⟨o, ho, e⟩ := Option.map_eq_some_iff.1 h0
    have hlt : π i < os.length := (List.getElem?_eq_some_iff.1 ho).1
    obtain ⟨its, e1, e2, e3, e4, -⟩ := hm.adds
    obtain ⟨its', e1', e2', e3', e4', -⟩ := hm'.adds
    have f : (its.map Segs.Item.origin)[π i]? = some o.1 := by rw [e1, List.getElem?_map, ho]; rfl
    have f' : (its'.map Segs.Item.origin)[i]? = some o'.1 := by rw [e1', List.getElem?_map, ho']; rfl
    rw [List.getElem?_map] at f f'
    obtain ⟨it, h1, h2⟩ := Option.map_eq_some_iff.1 f
    obtain ⟨it', h1', h2'⟩ := Option.map_eq_some_iff.1 f'
    have k : s.segs[π i]? = some it.seg := by rw [e2]; simp [Segments.empty, h1]
    have k' : s'.segs[i]? = some it'.seg := by rw [e2']; simp [Segments.empty, h1']
    have q : s.splitFromPredecessor[π i]? = some it.split := by rw [e4]; simp [Segments.empty, h1]
    have q' : s'.splitFromPredecessor[i]? = some it'.split := by rw [e4']; simp [Segments.empty, h1']
    have eo : it'.origin = it.origin := by rw [h2, h2', e]
    refine ⟨by rw [made_len hm]; exact hlt, it.seg, it'.seg, segAt_eq k, segAt_eq k', ?_, ?_⟩
    · exact origin_seg (ha'.fine _ (List.mem_of_getElem? k')).1 (ha.fine _ (List.mem_of_getElem? k)).1 (congrArg Origin.curve eo)
    · change (s'.splitFromPredecessor[i]?).getD (0, 1) = (s.splitFromPredecessor[π i]?).getD (0, 1)
      rw [q, q']
      exact congrArg Origin.range eo
  refine ⟨fun i hi => (key i hi).1, fun i hi j hj => hinj i (by rwa [hl'] at hi) j (by rwa [hl'] at hj), ?_, ?_, ?_, ?_, fun i hi => ?_⟩
  · intro i hi
    obtain ⟨-, g, g', h1, h2, h3, -⟩ := key i hi
    rw [h1, h2, seg_start, seg_start]
    rcases h3 with rfl | ⟨rfl, h3⟩
    · rfl
    · rw [rev_start, h3]
  · intro i hi
    obtain ⟨-, g, g', h1, h2, h3, -⟩ := key i hi
    rw [h1, h2, seg_stop, seg_stop]
    rcases h3 with rfl | ⟨rfl, h3⟩
    · rfl
    · rw [rev_stop, h3]
  · intro i hi hs
    obtain ⟨-, g, g', h1, h2, h3, -⟩ := key i hi
    rcases h3 with rfl | ⟨rfl, h3⟩
    · rw [h1, h2]
    · rw [h2, seg_start, seg_stop, rev_start, rev_stop, h3] at hs
      exact absurd hs (lt_irrefl _)
  · intro i hi p hp
    obtain ⟨-, g, g', h1, h2, h3, -⟩ := key i hi
    rw [h1]; rw [h2] at hp
    rcases h3 with rfl | ⟨rfl, h3⟩
    · exact hp
    · exact rev_on hp
  · obtain ⟨-, g, g', h1, h2, h3, h4⟩ := key i hi
    exact h4

/-! ## What is inherited -/

section
variable {s s' : Segments ℝ} {π : Nat → Nat} {eps : ℝ} {ρ : Nat → ℝ} {cfg : Cfg}

theorem Part.sl (h : Part s s' π) {i : Nat} (hi : Slanted s' i) : Slanted s (π i) ∧ segAt s' i = segAt s (π i) := by
  have e := h.slanted i hi.1 hi.2
  exact ⟨⟨h.lt i hi.1, by rw [← e]; exact hi.2⟩, e⟩

theorem Part.has (h : Part s s' π) {i : Nat} {t : ℝ} (hi : Has s' t i) : Has s t (π i) ∧ segAt s' i = segAt s (π i) := by
  obtain ⟨h1, e⟩ := h.sl hi.1
  exact ⟨⟨h1, by rw [← e]; exact hi.2⟩, e⟩

theorem Part.chain (h : Part s s' π) {t : ℝ} {i j : Nat} (hc : NearChain eps (fun i => ρ (π i)) s' t i j) : NearChain eps ρ s t (π i) (π j) := by
  unfold NearChain at hc ⊢
  induction hc with
  | refl => exact .refl
  | tail _ h2 ih =>
    obtain ⟨h3, h4, h5⟩ := h2
    obtain ⟨h3, e3⟩ := h.has h3
    obtain ⟨h4, e4⟩ := h.has h4
    exact ih.tail ⟨h3, h4, by rw [← e3, ← e4]; exact h5⟩

theorem Part.loose (h : Part s s' π) (hL : LooseCurves eps ρ s) : LooseCurves eps (fun i => ρ (π i)) s' := by
  refine ⟨?_, ?_, ?_, ?_⟩
  · intro i hi
    obtain ⟨h1, e⟩ := h.sl hi
    rw [e]; exact hL.gentle _ h1
  · intro i j hi hj
    obtain ⟨h1, e1⟩ := h.sl hi
    obtain ⟨h2, e2⟩ := h.sl hj
    rw [e1, e2]; exact hL.upright _ _ h1 h2
  · intro i j k t n hi hj hk hp hc hn
    obtain ⟨h1, e1⟩ := h.has hi
    obtain ⟨h2, e2⟩ := h.has hj
    obtain ⟨h3, e3⟩ := h.has hk
    rw [e1, e2] at hp; rw [e1, e3] at hn
    rcases hL.alone _ _ _ t (fun e => n (h.inj _ hi.1.1 _ hj.1.1 e)) h1 h2 h3 hp (h.chain hc) hn with e | e
    · exact .inl (h.inj _ hk.1.1 _ hi.1.1 e)
    · exact .inr (h.inj _ hk.1.1 _ hj.1.1 e)
  · intro i j t n hp hv hi hj hn
    obtain ⟨h1, e1⟩ := h.has hi
    obtain ⟨h2, e2⟩ := h.has hj
    rw [e1, e2] at hp hn ⊢
    obtain ⟨k, hk, hv⟩ := hv
    exact hL.ends _ _ t (fun e => n (h.inj _ hi.1.1 _ hj.1.1 e)) hp ⟨π k, h.lt k hk, by rw [← h.start k hk, ← h.stop k hk]; exact hv⟩ h1 h2 hn

theorem Part.tight (h : Part s s' π) (hT : Tight eps ρ s) : Tight eps (fun i => ρ (π i)) s' := by
  intro i j t n hi hj hp hn
  obtain ⟨h1, e1⟩ := h.has hi
  obtain ⟨h2, e2⟩ := h.has hj
  rw [e1, e2] at hp hn ⊢
  exact hT _ _ t (fun e => n (h.inj _ hi.1.1 _ hj.1.1 e)) h1 h2 hp hn

theorem Part.beyond (h : Part s s' π) (hB : Beyond cfg s) : Beyond cfg s' := fun i hi p hp => hB _ (h.lt i hi) p (h.on i hi p hp)

theorem Part.unsplit (h : Part s s' π) (hU : Unsplit s) : Unsplit s' := fun i hi => by rw [h.split i hi]; exact hU _ (h.lt i hi)

theorem Part.mild {μ σ W H : ℝ} (h : Part s s' π) (hM : Mild eps ρ s μ σ W H) : Mild eps (fun i => ρ (π i)) s' μ σ W H := by
  refine ⟨hM.width, hM.high, hM.mu, hM.sigma, ?_, ?_, ?_, ?_⟩
  · intro i hi
    obtain ⟨h1, e⟩ := h.sl hi
    rw [e]; exact hM.steep _ h1
  · intro i hi
    obtain ⟨h1, e⟩ := h.sl hi
    rw [e]; exact hM.curve _ h1
  · intro t i j hi hj hc
    obtain ⟨h1, e1⟩ := h.has hi
    obtain ⟨h2, e2⟩ := h.has hj
    rw [e1, e2]
    exact hM.chain t _ _ h1 h2 (h.chain hc)
  · intro i j u v n hl huv hall
    obtain ⟨h0, h0', -⟩ := hall u le_rfl huv
    obtain ⟨-, e1⟩ := h.has h0
    refine hM.short (π i) (π j) u v (fun e => n (h.inj _ h0.1.1 _ h0'.1.1 e)) (by rw [← e1]; exact hl) huv fun t h1 h2 => ?_
    obtain ⟨h3, h4, h5⟩ := hall t h1 h2
    obtain ⟨h3, e3⟩ := h.has h3
    obtain ⟨h4, e4⟩ := h.has h4
    exact ⟨h3, h4, by rw [← e3, ← e4]; exact h5⟩

theorem Part.outside (h : Part s s' π) {κ x z : ℝ} (hx : Outside κ s x z) : Outside κ s' x z := by
  intro i hi
  obtain ⟨h1, e⟩ := h.has hi
  rw [e]; exact hx _ h1

end

/-! ## The pieces of the same paths -/

/-- The pieces of a path. -/
noncomputable def pathPieces (a : List (PathEl ℝ)) : List (Origin ℝ) := ((pathSegs a).getD []).flatMap (Segs.segOrigins 0 1 mono)

theorem pathOrigins_tagged (a b : List (PathEl ℝ)) : (pathOrigins (tagged a b)).map Prod.fst = pathPieces a ++ pathPieces b := by
  simp [pathOrigins, tagged, pathPieces, Function.comp_def]

theorem part_of_pieces {a b c d : List (PathEl ℝ)} {s s' : Segments ℝ} {tags tags' : List Bool} (hb : buildPaths (tagged a b) = .ok s tags)
    (hb' : buildPaths (tagged c d) = .ok s' tags') {π : Nat → Nat}
    (hinj : ∀ i < (pathPieces c ++ pathPieces d).length, ∀ j < (pathPieces c ++ pathPieces d).length, π i = π j → i = j)
    (hget : ∀ i < (pathPieces c ++ pathPieces d).length, (pathPieces a ++ pathPieces b)[π i]? = (pathPieces c ++ pathPieces d)[i]?) : Part s s' π := by
  have hl : (pathOrigins (tagged c d)).length = (pathPieces c ++ pathPieces d).length := by rw [← pathOrigins_tagged, List.length_map]
  refine part_of_origins (buildPaths_arena hb) (buildPaths_arena hb') (buildPaths_made hb) (buildPaths_made hb') (by rw [hl]; exact hinj) ?_
  intro i hi
  rw [hl] at hi
  have := hget i hi
  rw [← pathOrigins_tagged, ← pathOrigins_tagged, List.getElem?_map, List.getElem?_map] at this
  exact this

/-- The arguments exchanged. -/
theorem part_exchange {a b : List (PathEl ℝ)} {s s' : Segments ℝ} {tags tags' : List Bool} (hb : buildPaths (tagged a b) = .ok s tags)
    (hb' : buildPaths (tagged b a) = .ok s' tags') :
    Part s s' fun i => if i < (pathPieces b).length then i + (pathPieces a).length else i - (pathPieces b).length := by
  refine part_of_pieces hb hb' ?_ ?_
  · intro i hi j hj e
    rw [List.length_append] at hi hj
    split_ifs at e <;> omega
  · intro i hi
    rw [List.length_append] at hi
    split_ifs with h
    · rw [List.getElem?_append_right (by omega), List.getElem?_append_left h, Nat.add_sub_cancel]
    · rw [List.getElem?_append_left (by omega), List.getElem?_append_right (by omega)]

/-- Only the first argument. -/
theorem part_first {a b : List (PathEl ℝ)} {s s' : Segments ℝ} {tags tags' : List Bool} (hb : buildPaths (tagged a b) = .ok s tags)
    (hb' : buildPaths (tagged a []) = .ok s' tags') : Part s s' id := by
  have h0 : pathPieces [] = [] := by simp [pathPieces, pathSegs, Segs.subpaths, Segs.allSome]
  refine part_of_pieces hb hb' (fun _ _ _ _ e => e) ?_
  intro i hi
  rw [h0, List.append_nil] at hi ⊢
  exact List.getElem?_append_left hi

/-! ## Acceptance -/

theorem firstBad_iff (vs : List Verdict) : firstBad vs = .closed ↔ ∀ v ∈ vs, v = .closed := by
  refine ⟨fun h => ?_, fun h => firstBad_closed h⟩
  induction vs with
  | nil => simp
  | cons v vs ih =>
    cases v <;> simp [firstBad] at h ⊢
    exact ih h

theorem buildPaths_ok_iff (ps : List (List (PathEl ℝ) × T)) : (∃ s tags, buildPaths ps = .ok s tags) ↔ ∀ p ∈ ps, ∀ sub ∈ Segs.subpaths p.1, verdict sub = .closed := by
  refine ⟨?_, fun h => C82_closed h⟩
  rintro ⟨s, tags, h⟩
  have := C82_accept ps
  rw [h] at this
  cases hv : firstBad ((ps.flatMap fun p => Segs.subpaths p.1).map verdict) with
  | headless => rw [hv] at this; simp at this
  | unclosed a b => rw [hv] at this; simp at this
  | closed =>
    rw [firstBad_iff] at hv
    intro p hp sub hs
    exact hv _ (List.mem_map_of_mem (List.mem_flatMap.2 ⟨p, hp, hs⟩))

theorem built_exchange {a b : List (PathEl ℝ)} {s : Segments ℝ} {tags : List Bool} (hb : buildPaths (tagged a b) = .ok s tags) :
    ∃ s' tags', buildPaths (tagged b a) = .ok s' tags' := by
  rw [buildPaths_ok_iff]
  have := (buildPaths_ok_iff (tagged a b)).1 ⟨s, tags, hb⟩
  intro p hp
  simp only [tagged, List.mem_cons, List.not_mem_nil, or_false] at hp this
  rcases hp with rfl | rfl
  · exact this (b, false) (.inr rfl)
  · exact this (a, true) (.inl rfl)

theorem built_first {a b : List (PathEl ℝ)} {s : Segments ℝ} {tags : List Bool} (hb : buildPaths (tagged a b) = .ok s tags) :
    ∃ s' tags', buildPaths (tagged a []) = .ok s' tags' := by
  rw [buildPaths_ok_iff]
  have := (buildPaths_ok_iff (tagged a b)).1 ⟨s, tags, hb⟩
  intro p hp
  simp only [tagged, List.mem_cons, List.not_mem_nil, or_false] at hp this
  rcases hp with rfl | rfl
  · exact this (a, true) (.inl rfl)
  · intro sub hs; simp [Segs.subpaths] at hs

/-! ## The laws -/

theorem Gives.unique {cfg : Cfg} {again : Nat → Nat → Bool} {a b : List (PathEl ℝ)} {rule : FillRule} {op : Op} {out out' : List OutContour}
    (h : Gives cfg again a b rule op out) (h' : Gives cfg again a b rule op out') : out = out' := by
  obtain ⟨N, h⟩ := h
  obtain ⟨M, h'⟩ := h'
  have := h (max N M) (le_max_left _ _)
  rw [h' (max N M) (le_max_right _ _)] at this
  simpa using this.symm

/-- What is asked of two paths: the pieces are in general position, and not cut (the hypotheses of C90, in one place). -/
structure Suited (cfg : Cfg) (κ : ℝ) (s : Segments ℝ) : Prop where
  unsplit : Unsplit s
  beyond : Beyond cfg s
  pieces : ∃ (ρ : Nat → ℝ) (μ σ W H : ℝ), LooseCurves cfg.eps ρ s ∧ Tight cfg.eps ρ s ∧ Mild cfg.eps ρ s μ σ W H ∧ (∀ i, Slanted s i → ρ i ≤ 2 * cfg.eps) ∧
    κ = driftOf cfg.eps μ σ W H

theorem Part.suited {cfg : Cfg} {κ : ℝ} {s s' : Segments ℝ} {π : Nat → Nat} (h : Part s s' π) (hR : Suited cfg κ s) : Suited cfg κ s' := by
  obtain ⟨ρ, μ, σ, W, H, h1, h2, h3, h4, h5⟩ := hR.pieces
  exact ⟨h.unsplit hR.unsplit, h.beyond hR.beyond, _, μ, σ, W, H, h.loose h1, h.tight h2, h.mild h3, fun i hi => h4 _ (h.sl hi).1, h5⟩

section
variable {cfg : Cfg} {again : Nat → Nat → Bool} {a b : List (PathEl ℝ)} {rule : FillRule} {s : Segments ℝ} {tags : List Bool} {κ : ℝ}
  (he : 0 < cfg.eps) (hpp : Searches cfg.pp) (hsolve : Geom.FindsRoots cfg.solve) (hf : OneFirst cfg.first)
include he hpp hsolve hf

/-- C90, in terms of `Gives`. -/
theorem gives (hb : buildPaths (tagged a b) = .ok s tags) (hR : Suited cfg κ s) (op : Op) : ∃ out, Gives cfg again a b rule op out := by
  obtain ⟨ρ, μ, σ, W, H, h1, h2, h3, h4, rfl⟩ := hR.pieces
  obtain ⟨N, out, h, -⟩ := C90_curves again he hpp hsolve hf hb hR.unsplit h1 h2 hR.beyond h3 h4 rule op
  exact ⟨out, N, h⟩

open Classical in
theorem Gives.value (hb : buildPaths (tagged a b) = .ok s tags) (hR : Suited cfg κ s) {op : Op} {out : List OutContour} (h : Gives cfg again a b rule op out)
    {x z : ℝ} (hx : Outside κ s x z) : windOut out x z = if Combine op (Fills rule a x z) (Fills rule b x z) then 1 else 0 := by
  obtain ⟨ρ, μ, σ, W, H, h1, h2, h3, h4, rfl⟩ := hR.pieces
  obtain ⟨N, out', h5, hr⟩ := C90_curves again he hpp hsolve hf hb hR.unsplit h1 h2 hR.beyond h3 h4 rule op
  obtain rfl := h.unique ⟨N, h5⟩
  split_ifs with hc
  · exact (hr.winding x z hx).1 hc
  · exact (hr.winding x z hx).2 hc

/-- C91, all operations return, in both orders of the arguments and for the first argument alone. -/
theorem C91_return (hb : buildPaths (tagged a b) = .ok s tags) (hR : Suited cfg κ s) (op : Op) :
    (∃ out, Gives cfg again a b rule op out) ∧ (∃ out, Gives cfg again b a rule op out) ∧ (∃ out, Gives cfg again a [] rule op out) := by
  obtain ⟨s1, t1, hb1⟩ := built_exchange hb
  obtain ⟨s2, t2, hb2⟩ := built_first hb
  exact ⟨gives he hpp hsolve hf hb hR op, gives he hpp hsolve hf hb1 ((part_exchange hb hb1).suited hR) op,
    gives he hpp hsolve hf hb2 ((part_first hb hb2).suited hR) op⟩

/-- C91, the order of the arguments: union, intersection and exclusive or do not depend on it. -/
theorem C91_commutative (hb : buildPaths (tagged a b) = .ok s tags) (hR : Suited cfg κ s) {again' : Nat → Nat → Bool} {op : Op} (hop : op ≠ .difference)
    {out out' : List OutContour} (h : Gives cfg again a b rule op out) (h' : Gives cfg again' b a rule op out') {x z : ℝ} (hx : Outside κ s x z) :
    windOut out x z = windOut out' x z := by
  classical
  obtain ⟨s1, t1, hb1⟩ := built_exchange hb
  have hp := part_exchange hb hb1
  rw [h.value he hpp hsolve hf hb hR hx, h'.value he hpp hsolve hf hb1 (hp.suited hR) (hp.outside hx)]
  refine if_congr ?_ rfl rfl
  cases op with
  | union => exact or_comm
  | intersection => exact and_comm
  | difference => exact absurd rfl hop
  | xor => exact or_comm

/-- C91, one operation from the others: a shape is the disjoint union of what is inside and what is outside of the other one, the union consists of the
intersection and the two differences, and the exclusive or of the two differences, which is the union without the intersection. -/
theorem C91_parts (hb : buildPaths (tagged a b) = .ok s tags) (hR : Suited cfg κ s) {u i d d' e : List OutContour} (hu : Gives cfg again a b rule .union u)
    (hi : Gives cfg again a b rule .intersection i) (hd : Gives cfg again a b rule .difference d) (hd' : Gives cfg again b a rule .difference d')
    (hx : Gives cfg again a b rule .xor e) {x z : ℝ} (hz : Outside κ s x z) :
    (Fills rule a x z → windOut i x z + windOut d x z = 1) ∧ (¬ Fills rule a x z → windOut i x z + windOut d x z = 0) ∧
    windOut u x z = windOut i x z + windOut d x z + windOut d' x z ∧ windOut e x z = windOut d x z + windOut d' x z ∧
    windOut e x z = windOut u x z - windOut i x z := by
  classical
  obtain ⟨s1, t1, hb1⟩ := built_exchange hb
  have hp := part_exchange hb hb1
  rw [hu.value he hpp hsolve hf hb hR hz, hi.value he hpp hsolve hf hb hR hz, hd.value he hpp hsolve hf hb hR hz, hx.value he hpp hsolve hf hb hR hz,
    hd'.value he hpp hsolve hf hb1 (hp.suited hR) (hp.outside hz)]
  by_cases h1 : Fills rule a x z <;> by_cases h2 : Fills rule b x z <;> simp [Combine, h1, h2]

/-- C91, a shape and nothing: union, difference and exclusive or are the shape and the intersection is empty. -/
theorem C91_nothing (hb : buildPaths (tagged a b) = .ok s tags) (hR : Suited cfg κ s) {op : Op} {out : List OutContour} (h : Gives cfg again a [] rule op out)
    {x z : ℝ} (hx : Outside κ s x z) :
    (Fills rule a x z ∧ op ≠ .intersection → windOut out x z = 1) ∧ (¬ Fills rule a x z ∨ op = .intersection → windOut out x z = 0) := by
  classical
  obtain ⟨s1, t1, hb1⟩ := built_first hb
  have hp := part_first hb hb1
  have h0 : ¬ Fills rule [] x z := by
    have : windPath [] x z = 0 := by simp [windPath, pathSegs, Segs.subpaths, Segs.allSome, windSegs]
    unfold Fills
    rw [this]
    cases rule <;> simp [InShape]
  rw [h.value he hpp hsolve hf hb1 (hp.suited hR) (hp.outside hx)]
  by_cases h1 : Fills rule a x z <;> cases op <;> simp [Combine, h1, h0]

end

/-! ## Returned paths as input -/

/-- A path of the form `MoveTo`, strokes, `ClosePath`. -/
def Single (p : List (PathEl ℝ)) : Prop := ∃ q els, p = .moveTo q :: (els ++ [.closePath]) ∧ ∀ e ∈ els, Stroke e

theorem takeSubpath_strokes (els rest : List (PathEl ℝ)) (hs : ∀ e ∈ els, Stroke e) (hr : rest = [] ∨ ∃ p rest', rest = .moveTo p :: rest') :
    Segs.takeSubpath (els ++ [.closePath] ++ rest) = (els ++ [.closePath], rest) := by
  induction els with
  | nil => rcases hr with rfl | ⟨p, rest', rfl⟩ <;> rfl
  | cons e els ih =>
    have hi := ih fun e he => hs e (List.mem_cons_of_mem _ he)
    have h1 := hs e List.mem_cons_self
    rw [List.cons_append, List.cons_append]
    cases e with
    | moveTo p => exact h1.elim
    | closePath => exact h1.elim
    | lineTo p => rw [Segs.takeSubpath, hi]; intro q; simp
    | quadTo p q => rw [Segs.takeSubpath, hi]; intro q; simp
    | curveTo p q r => rw [Segs.takeSubpath, hi]; intro q; simp

theorem joined_head {out : List OutContour} (h : ∀ c ∈ out, Single c.path) : joined out = [] ∨ ∃ p rest, joined out = .moveTo p :: rest := by
  cases out with
  | nil => exact .inl rfl
  | cons c out =>
    obtain ⟨q, els, e, -⟩ := h c List.mem_cons_self
    exact .inr ⟨q, els ++ [.closePath] ++ joined out, by simp [joined, e]⟩

theorem single_subpaths {out : List OutContour} (h : ∀ c ∈ out, Single c.path) : Segs.subpaths (joined out) = out.map OutContour.path := by
  induction out with
  | nil => simp [joined, Segs.subpaths]
  | cons c out ih =>
    have h' : ∀ c ∈ out, Single c.path := fun d hd => h d (List.mem_cons_of_mem _ hd)
    obtain ⟨q, els, e, hs⟩ := h c List.mem_cons_self
    have e' : joined (c :: out) = .moveTo q :: (els ++ [.closePath] ++ joined out) := by simp [joined, e]
    rw [e', Segs.subpaths, takeSubpath_strokes els _ hs (joined_head h'), ih h', List.map_cons, e]

theorem single_closed {p : List (PathEl ℝ)} (h : Single p) : verdict p = .closed := by
  obtain ⟨q, els, rfl, -⟩ := h
  simp [verdict, target, pen]

theorem single_wind {out : List OutContour} (h : ∀ c ∈ out, Single c.path) (hd : ∀ c ∈ out, ∃ gs, pathSegs c.path = some gs) (x z : ℝ) :
    windPath (joined out) x z = windOut out x z := by
  have key : ∀ l : List OutContour, (∀ c ∈ l, Single c.path) → (∀ c ∈ l, ∃ gs, pathSegs c.path = some gs) →
      windSegs (((Segs.allSome (Segs.kurboSegments none) (l.map OutContour.path)).map List.flatten).getD []) x z = windOut l x z ∧
      ∃ gss, Segs.allSome (Segs.kurboSegments none) (l.map OutContour.path) = some gss := by
    intro l hl hd
    induction l with
    | nil => exact ⟨rfl, [], rfl⟩
    | cons c l ih =>
      obtain ⟨i1, gss, i2⟩ := ih (fun d hd => hl d (List.mem_cons_of_mem _ hd)) fun d h => hd d (List.mem_cons_of_mem _ h)
      obtain ⟨gs, hgs⟩ := hd c List.mem_cons_self
      have hk : Segs.kurboSegments none c.path = some gs := by
        have h1 := hgs
        have h4 := single_subpaths (out := [c]) (fun d hd => hl d (by simp at hd; simp [hd]))
        have h5 : joined [c] = c.path := by simp [joined]
        rw [h5] at h4
        unfold pathSegs at h1
        rw [h4] at h1
        simp only [List.map_cons, List.map_nil, Segs.allSome] at h1
        cases hc : Segs.kurboSegments none c.path with
        | none => rw [hc] at h1; simp at h1
        | some g => rw [hc] at h1; simpa using h1
      rw [i2] at i1
      refine ⟨?_, gs :: gss, by simp [Segs.allSome, hk, i2]⟩
      simp only [List.map_cons, Segs.allSome, hk, i2, Option.map_some, Option.getD_some, List.flatten_cons] at i1 ⊢
      have e : windOut (c :: l) x z = windPath c.path x z + windOut l x z := by simp [windOut]
      rw [windSegs_append, i1, e, windPath, hgs, Option.getD_some]
  unfold windPath pathSegs
  rw [single_subpaths h]
  exact (key out h hd).1

/-- C91: what a boolean operation has returned is accepted as input, and as input it stands for the same set. -/
theorem C91_again {rule rule' : FillRule} {op op' : Op} {a b a' b' : List (PathEl ℝ)} {eps eps' κ κ' : ℝ} {s s' : Segments ℝ} {out out' : List OutContour}
    (h : RightCurves eps κ s a b rule op out) (h' : RightCurves eps' κ' s' a' b' rule' op' out') :
    (∃ s tags, buildPaths (tagged (joined out) (joined out')) = .ok s tags) ∧ ∀ x z, windPath (joined out) x z = windOut out x z := by
  refine ⟨C82_closed ?_, single_wind h.form fun c hc => ?_⟩
  · have hcl : ∀ {out : List OutContour}, (∀ c ∈ out, Single c.path) → ∀ sub ∈ Segs.subpaths (joined out), verdict sub = .closed := by
      intro out h sub hs
      rw [single_subpaths h] at hs
      obtain ⟨c, hc, rfl⟩ := List.mem_map.1 hs
      exact single_closed (h c hc)
    intro p hp
    simp only [tagged, List.mem_cons, List.not_mem_nil, or_false] at hp
    rcases hp with rfl | rfl
    · exact hcl h.form
    · exact hcl h'.form
  · obtain ⟨gs, h1, -⟩ := h.drawn c hc
    exact ⟨gs, h1⟩

end Verif.Full
