import Verif.Sweep.Generic
import Verif.Sweep.Balance

/-! # Segments in general position: entrances, exits and scans keep the line in order -/

namespace Verif.Sweep
open Verif.Curve Verif.Range Verif.Topo
set_option linter.unusedSectionVars false

section
variable {K : Type} [LinearOrder K] {E : Env K}

/-- `a` may come before `b` on the line at the height `y`. If both start there, they are not about to cross. If they are tame, `b` is nowhere to
the left of `a`. -/
def Env.InOrder (E : Env K) (y : K) (a b : Nat) : Prop :=
  ¬ E.Sure y b a ∧ (E.startY a = y → E.startY b = y → ¬ E.Due y a b) ∧ (E.Tame a b → ¬ E.Lt b a)

/-- `a` comes before `b`, and somewhere it is to the left of it. -/
def Env.Ahead (E : Env K) (y : K) (a b : Nat) : Prop := E.InOrder y a b ∧ E.Lt a b

variable {y : K}

theorem lt_of_atY {a b : Nat} (ha : E.On y a) (hb : E.On y b) (h : E.atY a y < E.atY b y) : E.Lt a b := ⟨y, ha.2, hb.2, h⟩

theorem atY_of_lt {a b : Nat} (ha : E.On y a) (hb : E.On y b) (h : ¬ E.Lt b a) : E.atY a y ≤ E.atY b y := not_lt.1 fun h' => h (lt_of_atY hb ha h')

theorem lt_of_piece (hK : E.Comparable) {a b : Nat} (ha : E.On y a) (hb : E.On y b) {p : Piece K} (hp : p ∈ (E.cmp a b).iter) :
    (p.order = .left → E.Lt a b) ∧ (p.order = .right → E.Lt b a) := by
  obtain ⟨hwf, hst, hen⟩ := hK.wf a b y ha hb
  obtain ⟨h1, h2⟩ := hwf.2.lo_le p hp
  have h3 := h2.trans (wf_hi_le hwf hen p hp)
  rw [hst, max_le_iff] at h1
  rw [le_min_iff] at h3
  exact ⟨fun ho => ⟨p.lo, ⟨h1.1, h3.1⟩, ⟨h1.2, h3.2⟩, hK.left a b y ha hb p hp ho p.lo le_rfl h2⟩,
    fun ho => ⟨p.lo, ⟨h1.2, h3.2⟩, ⟨h1.1, h3.1⟩, hK.right a b y ha hb p hp ho p.lo le_rfl h2⟩⟩

theorem Env.Due.lt (hK : E.Comparable) {a b : Nat} {t : K} (ha : E.On y a) (hb : E.On y b) (h : E.Due t a b) : E.Lt b a := by
  obtain ⟨as, q, r, bs, e, h1, h2, -⟩ := h
  exact (lt_of_piece hK ha hb (by rw [e]; simp : r ∈ (E.cmp a b).iter)).2 h2

theorem inOrder_of_lt (hG : E.Generic) {a b : Nat} (ha : E.On y a) (hb : E.On y b) (hc : E.Corner y) (h : E.atY a y < E.atY b y) : E.Ahead y a b := by
  have hlt := lt_of_atY ha hb h
  refine ⟨⟨fun hs => lt_irrefl _ (h.trans (hG.comparable.sure_lt hs)), ?_, fun ht => (ht.1 hlt).1⟩, hlt⟩
  intro h1 h2 hd
  have hne : a ≠ b := by rintro rfl; exact lt_irrefl _ h
  have hw : ¬ E.Tame a b := fun ht => (ht.1 hlt).1 (hd.lt hG.comparable ha hb)
  obtain ⟨_, _, h3⟩ := hG.vertex a b y ha hb hne hw (hd.near hG) (by have := ha.1.2; rwa [h1] at this) (by have := hb.1.2; rwa [h2] at this) hc
  rw [← hG.start a ha.1, ← hG.start b hb.1, h1, h2] at h3
  exact h.ne h3

theorem inOrder_of_after (hG : E.Generic) {a b : Nat} (ha : E.On y a) (hb : E.On y b) (hne : a ≠ b) (hm : max (E.startY a) (E.startY b) = y)
    (h : (E.cmp a b).orderAfter y ≠ some .right) : E.InOrder y a b := by
  refine ⟨fun hs => ?_, fun h1 h2 hd => ?_, fun ht hlt => ?_⟩
  · have := sure_after hG.comparable hs
    rw [hG.after_flip ha hb hne] at this
    obtain ⟨o, h1, h2⟩ := Option.map_eq_some_iff.1 this
    rw [Order.flip_left] at h2
    exact h (by rw [h1, h2])
  · exact h (due_after hG.comparable ha hb (by have := ha.1.2; rwa [h1] at this) (by have := hb.1.2; rwa [h2] at this) hd)
  · have := (ht.2 hlt).2
    rw [max_comm, hm, hG.after_flip ha hb hne] at this
    obtain ⟨o, h1, h2⟩ := Option.map_eq_some_iff.1 this
    rw [Order.flip_left] at h2
    exact h (by rw [h1, h2])

theorem inOrder_of_after' (hG : E.Generic) {a b : Nat} (ha : E.On y a) (hb : E.On y b) (hne : a ≠ b) (hm : max (E.startY a) (E.startY b) = y)
    (h : (E.cmp b a).orderAfter y ≠ some .left) : E.InOrder y a b := by
  refine inOrder_of_after hG ha hb hne hm fun h1 => h ?_
  rw [hG.after_flip ha hb hne, h1]
  rfl

theorem ahead_of_after (hG : E.Generic) {a b : Nat} (ha : E.On y a) (hb : E.On y b) (hne : a ≠ b) (hm : max (E.startY a) (E.startY b) = y)
    (h : (E.cmp a b).orderAfter y = some .left) : E.Ahead y a b := by
  refine ⟨inOrder_of_after hG ha hb hne hm (by rw [h]; simp), ?_⟩
  obtain ⟨p, hp, ho⟩ := orderAfter_mem (by simp) h
  exact (lt_of_piece hG.comparable ha hb hp).1 ho

theorem ahead_of_after' (hG : E.Generic) {a b : Nat} (ha : E.On y a) (hb : E.On y b) (hne : a ≠ b) (hm : max (E.startY a) (E.startY b) = y)
    (h : (E.cmp b a).orderAfter y = some .right) : E.Ahead y a b := by
  refine ahead_of_after hG ha hb hne hm ?_
  rw [hG.after_flip ha hb hne] at h
  obtain ⟨o, h1, h2⟩ := Option.map_eq_some_iff.1 h
  rw [Order.flip_right] at h2
  rw [h1, h2]

/-- A new segment `g`, an entry `l` of the line that comes before it and an entry `e` further to the left. All notions are abstract, so that the
statement can be read in both directions. -/
theorem order_through {P : Type} [LinearOrder P] {p : Nat → P} {S L T D : Nat → Nat → Prop} {st : Nat → Prop} {On : Nat → Prop} {e l g : Nat}
    (hS : ∀ a b, S a b → p a < p b) (hL : ∀ a b, On a → On b → p a < p b → L a b) (hT : ∀ a b, T a b → L a b → ¬ L b a) (hTs : ∀ a b, T a b → T b a)
    (alone : ∀ a b c, On a → On b → On c → a ≠ b → c ≠ a → c ≠ b → ¬ T a b → ¬ S a b → ¬ S b a → S a c ∨ S c a)
    (nothing : ∀ a b c, a ≠ b → ¬ T a b → ¬ S a b → ¬ S b a → S a c → ¬ S c b)
    (hD : ∀ a b, On a → On b → D a b → L b a ∧ ¬ S a b ∧ ¬ S b a)
    (through : T l g → T g e → L l g → L g e → L l e)
    (he : On e) (hl : On l) (hg : On g) (nel : e ≠ l) (nlg : l ≠ g) (neg : e ≠ g)
    (h1 : ¬ S l e ∧ (st e → st l → ¬ D e l) ∧ (T e l → ¬ L l e)) (h2 : ¬ S g l ∧ (st l → st g → ¬ D l g) ∧ (T l g → ¬ L g l)) (h3 : L l g) :
    ¬ S g e ∧ (st e → st g → ¬ D e g) ∧ (T e g → ¬ L g e) := by
  have le_of : ∀ a b, On a → On b → ¬ L b a → p a ≤ p b := fun a b ha hb h => not_lt.1 fun h' => h (hL b a hb ha h')
  have no : ∀ a b, p a ≤ p b → ¬ S b a := fun a b h h' => absurd (hS b a h') (not_lt.2 h)
  have tame_ge : T e g → ¬ L g e := by
    intro ht hlt
    have hge := le_of g e hg he (hT g e (hTs _ _ ht) hlt)
    by_cases hlg : T l g
    · have hll := le_of l g hl hg (h2.2.2 hlg)
      have hle := through hlg (hTs _ _ ht) h3 hlt
      have hw : ¬ T e l := fun h => h1.2.2 h hle
      have n1 : ¬ S e l := no l e (hll.trans hge)
      rcases alone l e g hl he hg nel.symm nlg.symm neg.symm (fun h => hw (hTs _ _ h)) h1.1 n1 with k | k
      · rcases alone e l g he hl hg nel neg.symm nlg.symm hw n1 h1.1 with k' | k'
        · exact no g e hge k'
        · exact nothing l e g nel.symm (fun h => hw (hTs _ _ h)) h1.1 n1 k k'
      · exact no l g hll k
    · by_cases hs : S l g
      · have hw : ¬ T e l := fun h => h1.2.2 h (hL l e hl he ((hS l g hs).trans_le hge))
        have n1 : ¬ S e l := no l e ((hS l g hs).le.trans hge)
        rcases alone e l g he hl hg nel neg.symm nlg.symm hw n1 h1.1 with k' | k'
        · exact no g e hge k'
        · exact nothing l e g nel.symm (fun h => hw (hTs _ _ h)) h1.1 n1 hs k'
      · rcases alone g l e hg hl he nlg.symm neg nel (fun h => hlg (hTs _ _ h)) h2.1 hs with k | k
        · rcases alone l g e hl hg he nlg nel neg hlg hs h2.1 with k' | k'
          · exact h1.1 k'
          · exact nothing g l e nlg.symm (fun h => hlg (hTs _ _ h)) h2.1 hs k k'
        · exact no g e hge k
  refine ⟨?_, ?_, tame_ge⟩
  · intro hs
    by_cases hlg : S l g
    · have hlt := (hS l g hlg).trans (hS g e hs)
      have hw : ¬ T e l := fun h => h1.2.2 h (hL l e hl he hlt)
      exact nothing l e g nel.symm (fun h => hw (hTs _ _ h)) h1.1 (no l e hlt.le) hlg hs
    · by_cases ht : T l g
      · have hlt := (le_of l g hl hg (h2.2.2 ht)).trans_lt (hS g e hs)
        have hw : ¬ T e l := fun h => h1.2.2 h (hL l e hl he hlt)
        rcases alone l e g hl he hg nel.symm nlg.symm neg.symm (fun h => hw (hTs _ _ h)) h1.1 (no l e hlt.le) with k | k
        · exact hlg k
        · exact h2.1 k
      · rcases alone l g e hl hg he nlg nel neg ht hlg h2.1 with k | k
        · exact h1.1 k
        · exact nothing g l e nlg.symm (fun h => ht (hTs _ _ h)) h2.1 hlg hs k
  · intro _ _ hd
    obtain ⟨d1, d2, d3⟩ := hD e g he hg hd
    have hw : ¬ T e g := fun h => tame_ge h d1
    rcases alone e g l he hg hl neg nel.symm nlg hw d2 d3 with k | k
    · rcases alone g e l hg he hl neg.symm nlg nel.symm (fun h => hw (hTs _ _ h)) d3 d2 with k' | k'
      · exact h2.1 k'
      · exact nothing e g l neg hw d2 d3 k k'
    · exact h1.1 k

theorem lt_through' (hT : ∀ a b, E.Tame a b → E.Lt a b → ¬ E.Lt b a) {a b c : Nat} (ha : E.On y a) (hc : E.On y c) (hs : E.startY b = y)
    (t1 : E.Tame a b) (t2 : E.Tame b c) (h1 : E.Lt a b) (h2 : E.Lt b c) : E.Lt a c := by
  have n1 := hT a b t1 h1
  have n2 := hT b c t2 h2
  obtain ⟨t1, p1, p2, p3⟩ := h1
  obtain ⟨t2, q1, q2, q3⟩ := h2
  rcases le_total t1 t2 with h | h
  · have hct : E.startY c ≤ t1 ∧ t1 ≤ E.endY c := ⟨hc.2.1.trans (hs ▸ p2.1), h.trans q2.2⟩
    refine ⟨t1, p1, hct, lt_of_lt_of_le p3 ?_⟩
    by_contra hlt
    exact n2 ⟨t1, hct, p2, not_le.1 hlt⟩
  · have hat : E.startY a ≤ t2 ∧ t2 ≤ E.endY a := ⟨ha.2.1.trans (hs ▸ q1.1), h.trans p1.2⟩
    refine ⟨t2, hat, q2, lt_of_le_of_lt ?_ q3⟩
    by_contra hlt
    exact n1 ⟨t2, q1, hat, not_le.1 hlt⟩

theorem Env.Tame.lt {a b : Nat} (h : E.Tame a b) (h1 : E.Lt a b) : ¬ E.Lt b a := (h.1 h1).1

/-- What comes before an entry that is ahead of the new segment comes before the new segment. -/
theorem Env.InOrder.ahead (hG : E.Generic) {e l g : Nat} (he : E.On y e) (hl : E.On y l) (hg : E.On y g) (hst : E.startY g = y) (nel : e ≠ l) (nlg : l ≠ g)
    (neg : e ≠ g) (h1 : E.InOrder y e l) (h2 : E.Ahead y l g) : E.InOrder y e g := by
  have hK := hG.comparable
  refine order_through (p := fun a => E.atY a y) (S := E.Sure y) (L := E.Lt) (T := E.Tame) (D := E.Due y) (st := fun a => E.startY a = y) (On := E.On y)
    (fun a b h => hK.sure_lt h) (fun a b ha hb h => lt_of_atY ha hb h) (fun a b h h' => h.lt h') (fun a b h => h.symm) ?_ ?_ ?_ ?_ he hl hg nel nlg neg h1 h2.1 h2.2
  · intro a b c ha hb hc n1 n2 n3 hw s1 s2
    by_contra hn
    rw [not_or] at hn
    exact hG.lonely ha hb hc n1 n2 n3 hw ⟨s1, s2⟩ hn
  · intro a b c n1 hw s1 s2 s3
    exact hG.nothing n1 hw ⟨s1, s2⟩ s3
  · intro a b ha hb hd
    exact ⟨hd.lt hK ha hb, hd.near hG⟩
  · exact lt_through' (fun a b h h' => h.lt h') hl he hst

/-- What comes after an entry that the new segment is ahead of comes after the new segment. -/
theorem Env.Ahead.inOrder (hG : E.Generic) {g l e : Nat} (he : E.On y e) (hl : E.On y l) (hg : E.On y g) (hst : E.startY g = y) (nel : e ≠ l) (nlg : l ≠ g)
    (neg : e ≠ g) (h2 : E.Ahead y g l) (h1 : E.InOrder y l e) : E.InOrder y g e := by
  have hK := hG.comparable
  have := order_through (P := Kᵒᵈ) (p := fun a => OrderDual.toDual (E.atY a y)) (S := fun a b => E.Sure y b a) (L := fun a b => E.Lt b a) (T := E.Tame)
    (D := fun a b => E.Due y b a) (st := fun a => E.startY a = y) (On := E.On y) (e := e) (l := l) (g := g)
    (fun a b h => hK.sure_lt h) (fun a b ha hb h => lt_of_atY hb ha h) (fun a b h h' => h.symm.lt h') (fun a b h => h.symm) ?_ ?_ ?_ ?_ he hl hg nel nlg neg
    ⟨h1.1, fun a b => h1.2.1 b a, fun ht => h1.2.2 ht.symm⟩ ⟨h2.1.1, fun a b => h2.1.2.1 b a, fun ht => h2.1.2.2 ht.symm⟩ h2.2
  · exact ⟨this.1, fun a b => this.2.1 b a, fun ht => this.2.2 ht.symm⟩
  · intro a b c ha hb hc n1 n2 n3 hw s1 s2
    by_contra hn
    rw [not_or] at hn
    exact hG.lonely ha hb hc n1 n2 n3 hw ⟨s2, s1⟩ ⟨hn.2, hn.1⟩
  · intro a b c n1 hw s1 s2 s3 s4
    exact hG.nothing n1.symm (fun h => hw h.symm) ⟨s1, s2⟩ s4 s3
  · intro a b ha hb hd
    exact ⟨hd.lt hK hb ha, hd.near hG⟩
  · intro t1 t2 k1 k2
    exact lt_through' (fun a b h h' => h.lt h') he hl hst t2.symm t1.symm k2 k1

theorem orderAt_piece {c : CurveOrder K} (h : WF c) {t : K} (hs : c.start ≤ t) {o : Order} (ho : c.orderAt t = some o) :
    ∃ p ∈ c.iter, p.lo ≤ t ∧ t ≤ p.hi ∧ p.order = o := by
  unfold CurveOrder.orderAt at ho
  obtain ⟨p, h1, h2⟩ := Option.map_eq_some_iff.1 ho
  rw [List.find?_eq_some_iff_append] at h1
  obtain ⟨g1, as, bs, e, g2⟩ := h1
  refine ⟨p, by rw [e]; simp, ?_, by simpa using g1, h2⟩
  have ht := h.2
  rw [e] at ht
  rcases ht.prev with ⟨_, k⟩ | ⟨as', a, k1, k2⟩
  · rw [k]; exact hs
  · have := g2 a (by rw [k1]; simp)
    simp only [Bool.not_eq_true', decide_eq_false_iff_not, not_le] at this
    rw [← k2]; exact this.le

/-- The place found for a segment. -/
def Place (E : Env K) (y : K) (seg : Nat) (A B : List Entry) : Prop :=
  (A = [] ∨ ∃ A' e, A = A' ++ [e] ∧ E.Ahead y e.seg seg) ∧ ∀ f ∈ B, E.InOrder y seg f.seg

/-- The segments of the line. -/
structure OnLineG (E : Env K) (y : K) (line : List Entry) : Prop where
  on : ∀ f ∈ line, E.On y f.seg
  nodup : (line.map Entry.seg).Nodup
  order : line.Pairwise fun e f => E.InOrder y e.seg f.seg

theorem OnLineG.sublist {l l' : List Entry} (h : OnLineG E y l) (hs : l'.Sublist l) : OnLineG E y l' :=
  ⟨fun f hf => h.on f (hs.subset hf), h.nodup.sublist (hs.map _), h.order.sublist hs⟩

theorem OnLineG.congr {l l' : List Entry} (h : OnLineG E y l) (hl : l'.map Entry.seg = l.map Entry.seg) : OnLineG E y l' := by
  refine ⟨?_, by rw [hl]; exact h.nodup, ?_⟩
  · intro f hf
    have : f.seg ∈ l.map Entry.seg := by rw [← hl]; exact List.mem_map_of_mem hf
    obtain ⟨g, h1, h2⟩ := List.mem_map.1 this
    rw [← h2]; exact h.on g h1
  · have := h.order
    rw [← List.pairwise_map (f := Entry.seg) (R := E.InOrder y)] at this ⊢
    rw [hl]; exact this

/-- Two entries of the line. -/
theorem OnLineG.pair {l1 l2 : List Entry} {e : Entry} (h : OnLineG E y (l1 ++ e :: l2)) :
    (∀ f ∈ l1, f.seg ≠ e.seg ∧ E.InOrder y f.seg e.seg) ∧ ∀ f ∈ l2, e.seg ≠ f.seg ∧ E.InOrder y e.seg f.seg := by
  obtain ⟨h1, h2, h3⟩ := h
  rw [List.pairwise_append, List.pairwise_cons] at h3
  rw [List.map_append, List.map_cons, List.nodup_append, List.nodup_cons] at h2
  refine ⟨fun f hf => ⟨h2.2.2 f.seg (List.mem_map_of_mem hf) e.seg (by simp), h3.2.2 f hf e (by simp)⟩, fun f hf => ⟨?_, h3.2.1.1 f hf⟩⟩
  intro he
  exact h2.2.1.1 (by rw [he]; exact List.mem_map_of_mem hf)

theorem Place.sorted (hG : E.Generic) {seg : Nat} {A B : List Entry} (hl : OnLineG E y (A ++ B)) (hn : ∀ f ∈ A ++ B, f.seg ≠ seg) (hseg : E.On y seg)
    (hst : E.startY seg = y) (h : Place E y seg A B) : (∀ e ∈ A, E.InOrder y e.seg seg) ∧ ∀ f ∈ B, E.InOrder y seg f.seg := by
  refine ⟨?_, h.2⟩
  rcases h.1 with rfl | ⟨A', l, rfl, hl'⟩
  · simp
  intro e he
  have hoe := hl.on e (List.mem_append_left _ he)
  rw [List.mem_append, List.mem_singleton] at he
  rcases he with he | rfl
  · rw [List.append_assoc, List.singleton_append] at hl
    obtain ⟨p1, p2⟩ := hl.pair.1 e he
    exact Env.InOrder.ahead hG hoe (hl.on l (by simp)) hseg hst p1 (hn l (by simp)) (hn e (by simp [he])) p2 hl'
  · exact hl'.1

theorem after_place (hG : E.Generic) {seg : Nat} {B1 B2 : List Entry} {f : Entry} (hl : OnLineG E y (B1 ++ f :: B2))
    (hn : ∀ g ∈ B1 ++ f :: B2, g.seg ≠ seg) (hseg : E.On y seg) (hst : E.startY seg = y) (h1 : ∀ g ∈ B1, E.InOrder y seg g.seg) (h2 : E.Ahead y seg f.seg) :
    ∀ g ∈ B1 ++ f :: B2, E.InOrder y seg g.seg := by
  intro g hg
  have hog := hl.on g hg
  have hng := hn g hg
  rw [List.mem_append, List.mem_cons] at hg
  rcases hg with hg | rfl | hg
  · exact h1 g hg
  · exact h2.1
  · obtain ⟨p1, p2⟩ := hl.pair.2 g hg
    exact Env.Ahead.inOrder hG hog (hl.on f (by simp)) hseg hst p1.symm (hn f (by simp)) hng h2 p2

theorem insertionScan_place (hG : E.Generic) {seg : Nat} (hseg : E.On y seg) (hst : E.startY seg = y) (es : List Entry) :
    ∀ (P Q : List Entry) (i idx r : Nat), OnLineG E y (P ++ Q ++ es) → (∀ f ∈ P ++ Q ++ es, f.seg ≠ seg) → P.length = idx → (P ++ Q).length = i →
      (P = [] ∨ ∃ A' e, P = A' ++ [e] ∧ E.Ahead y e.seg seg) → (∀ f ∈ Q, E.InOrder y seg f.seg) → insertionScan E y seg es i idx = some r →
      ∃ A B, P ++ Q ++ es = A ++ B ∧ A.length = r ∧ Place E y seg A B := by
  have hK := hG.comparable
  have hc : E.Corner y := ⟨seg, hseg.1.1, .inl hst⟩
  induction es with
  | nil =>
    intro P Q i idx r hl hn h1 h2 h3 h4 h
    simp only [insertionScan, Option.some.injEq] at h
    exact ⟨P, Q, by simp, by omega, h3, h4⟩
  | cons e es ih =>
    intro P Q i idx r hl hn h1 h2 h3 h4 h
    have hoe := hl.on e (by simp)
    have hne : e.seg ≠ seg := hn e (by simp)
    have hmax : max (E.startY e.seg) (E.startY seg) = y := by rw [hst]; exact max_eq_right hoe.2.1
    obtain ⟨hwf, hstart, hen⟩ := hK.wf e.seg seg y hoe hseg
    have hle : (E.cmp e.seg seg).start ≤ y := by rw [hstart]; exact (range_le hoe hseg).1
    have step_left : E.Ahead y e.seg seg → insertionScan E y seg es (i + 1) (i + 1) = some r →
        ∃ A B, P ++ Q ++ e :: es = A ++ B ∧ A.length = r ∧ Place E y seg A B := by
      intro hlt h
      have e1 : P ++ Q ++ e :: es = (P ++ Q ++ [e]) ++ [] ++ es := by simp
      rw [e1] at hl hn ⊢
      exact ih _ _ (i + 1) (i + 1) r hl hn (by simp at h2 ⊢; omega) (by simp at h2 ⊢; omega) (.inr ⟨P ++ Q, e, rfl, hlt⟩) (by simp) h
    have step_right : E.InOrder y seg e.seg → insertionScan E y seg es (i + 1) idx = some r →
        ∃ A B, P ++ Q ++ e :: es = A ++ B ∧ A.length = r ∧ Place E y seg A B := by
      intro hlt h
      have e1 : P ++ Q ++ e :: es = P ++ (Q ++ [e]) ++ es := by simp
      rw [e1] at hl hn ⊢
      refine ih _ _ (i + 1) idx r hl hn h1 (by simp at h2 ⊢; omega) h3 ?_ h
      intro f hf
      rw [List.mem_append, List.mem_singleton] at hf
      rcases hf with hf | rfl
      · exact h4 f hf
      · exact hlt
    simp only [insertionScan] at h
    split at h
    · simp at h
    · -- to the right
      rename_i ho
      obtain ⟨p, hp, p1, p2, hpo⟩ := orderAt_piece hwf hle ho
      have hlt := inOrder_of_lt hG hseg hoe hc (hK.right _ _ y hoe hseg p hp hpo y p1 p2)
      simp only [Option.some.injEq] at h
      refine ⟨P, Q ++ e :: es, by simp, by omega, h3, ?_⟩
      rw [List.append_assoc] at hl hn
      exact after_place hG (hl.sublist (List.sublist_append_right _ _)) (fun g hg => hn g (List.mem_append_right _ hg)) hseg hst h4 hlt
    · split at h
      · simp at h
      · rename_i ha
        exact step_left (ahead_of_after hG hoe hseg hne hmax ha) h
      · rename_i o hno ha
        exact step_right (inOrder_of_after' hG hseg hoe hne.symm (by rw [max_comm]; exact hmax) (by rw [ha]; simpa using hno)) h
    · rename_i ho
      obtain ⟨p, hp, p1, p2, hpo⟩ := orderAt_piece hwf hle ho
      exact step_left (inOrder_of_lt hG hoe hseg hc (hK.left _ _ y hoe hseg p hp hpo y p1 p2)) h

theorem insertionIdx_place (hG : E.Generic) (hpp : E.PP) {seg : Nat} (hseg : E.On y seg) (hst : E.startY seg = y) {line : List Entry} {pos : Nat}
    (hl : OnLineG E y line) (hn : ∀ f ∈ line, f.seg ≠ seg) (h : insertionIdx E y line seg = some pos) :
    ∃ A B, line = A ++ B ∧ A.length = pos ∧ Place E y seg A B := by
  have hK := hG.comparable
  have hon := hl.on
  have hc : E.Corner y := ⟨seg, hseg.1.1, .inl hst⟩
  have hat : E.atY seg y = E.startX seg := by rw [← hst]; exact hG.start seg hseg.1
  have hlt_of : ∀ f ∈ line, E.upperBound f.seg ≤ E.startX seg → E.Ahead y f.seg seg := by
    intro f hf hle
    have ho := hon f hf
    exact inOrder_of_lt hG ho hseg hc (by rw [hat]; exact lt_of_lt_of_le (hG.upper _ y ho) hle)
  have hgt_of : ∀ f ∈ line, E.startX seg ≤ E.lowerBound f.seg → E.Ahead y seg f.seg := by
    intro f hf hle
    have ho := hon f hf
    exact inOrder_of_lt hG hseg ho hc (by rw [hat]; exact lt_of_le_of_lt hle (hG.lower _ y ho))
  have hsplit : ∀ n ≤ line.length, ∃ A B, line = A ++ B ∧ A.length = n := fun n hn => ⟨line.take n, line.drop n, by simp, by simp [hn]⟩
  have hlast : ∀ (Pr : Nat → Bool) (A B : List Entry), line = A ++ B → A.length = E.pp Pr (line.map Entry.seg) →
      A = [] ∨ ∃ A' e, A = A' ++ [e] ∧ Pr e.seg = true := by
    intro Pr A B e1 e2
    rcases List.eq_nil_or_concat A with h0 | ⟨A', e, h0⟩
    · exact .inl h0
    · right
      rw [List.concat_eq_append] at h0
      refine ⟨A', e, h0, ?_⟩
      refine hpp.left Pr (line.map Entry.seg) A'.length e.seg ?_ ?_
      · rw [← e2, h0]; simp
      · rw [List.getElem?_map, e1, h0]; simp
  simp only [insertionIdx] at h
  obtain ⟨n, hn'⟩ : ∃ n, n = E.pp (fun a => decide (E.upperBound a ≤ E.startX seg)) (line.map Entry.seg) := ⟨_, rfl⟩
  rw [← hn'] at h
  have hnl : n ≤ line.length := by have := hpp.le (fun a => decide (E.upperBound a ≤ E.startX seg)) (line.map Entry.seg); rw [← hn', List.length_map] at this; exact this
  obtain ⟨A, B, e1, e2⟩ := hsplit n hnl
  have hA : A = [] ∨ ∃ A' e, A = A' ++ [e] ∧ E.Ahead y e.seg seg := by
    rcases hlast _ A B e1 (by rw [e2, hn']) with h0 | ⟨A', e, h0, h3⟩
    · exact .inl h0
    · exact .inr ⟨A', e, h0, hlt_of e (by rw [e1, h0]; simp) (by simpa using h3)⟩
  split at h
  · rename_i hnone
    simp only [Option.some.injEq] at h
    refine ⟨A, B, e1, by omega, hA, ?_⟩
    rw [List.getElem?_eq_none_iff, e1, List.length_append] at hnone
    have : B = [] := List.eq_nil_of_length_eq_zero (by omega)
    rw [this]; simp
  · rename_i e he
    obtain ⟨B', hB⟩ : ∃ B', B = e :: B' := by
      rw [e1, List.getElem?_append_right (by omega), e2, Nat.sub_self] at he
      cases B with
      | nil => simp at he
      | cons b B' => simp only [List.getElem?_cons_zero, Option.some.injEq] at he; exact ⟨B', by rw [he]⟩
    have hme : e ∈ line := by rw [e1, hB]; simp
    have hoe := hon e hme
    have hne := hn e hme
    have hmax : max (E.startY e.seg) (E.startY seg) = y := by rw [hst]; exact max_eq_right hoe.2.1
    have hnext : line[n + 1]? = B'.head? := by
      rw [e1, hB, List.getElem?_append_right (by omega), e2]
      have : n + 1 - n = 1 := by omega
      rw [this]
      cases B' <;> rfl
    rw [ite_eq_iff] at h
    rcases h with ⟨hc', h⟩ | ⟨hc', h⟩
    · -- what follows is to the right
      have hB' : ∀ f ∈ B', E.InOrder y seg f.seg := by
        cases B' with
        | nil => simp
        | cons f B'' =>
          rw [hnext] at hc'
          have hc' : E.startX seg ≤ E.lowerBound f.seg := by simpa using hc'
          have := after_place hG (B1 := []) (f := f) (B2 := B'') (hl.sublist (by
              rw [e1, hB, List.nil_append]
              exact (List.sublist_cons_self _ _).trans (List.sublist_append_right _ _))) (fun g hg => hn g (by rw [e1, hB]; simp at hg ⊢; tauto)) hseg hst (by simp)
            (hgt_of f (by rw [e1, hB]; simp) hc')
          simpa using this
      split at h
      · simp at h
      · rename_i ho
        simp only [Option.some.injEq] at h
        refine ⟨A ++ [e], B', by rw [e1, hB]; simp, by simp; omega, .inr ⟨A, e, rfl, ahead_of_after' hG hoe hseg hne hmax ho⟩, hB'⟩
      · rename_i o hno ho
        simp only [Option.some.injEq] at h
        refine ⟨A, B, e1, by omega, hA, ?_⟩
        rw [hB]
        intro f hf
        rcases List.mem_cons.1 hf with rfl | hf
        · exact inOrder_of_after hG hseg hoe hne.symm (by rw [max_comm]; exact hmax) (by rw [ho]; simpa using hno)
        · exact hB' f hf
    · obtain ⟨k, hk⟩ : ∃ k, k = E.pp (fun a => decide ((E.cmp a seg).orderAt y = some .left)) (line.map Entry.seg) := ⟨_, rfl⟩
      rw [← hk] at h
      have hkl : k ≤ line.length := by
        have := hpp.le (fun a => decide ((E.cmp a seg).orderAt y = some .left)) (line.map Entry.seg); rw [← hk, List.length_map] at this; exact this
      obtain ⟨P, R, f1, f2⟩ := hsplit k hkl
      have hPl : P = [] ∨ ∃ A' e, P = A' ++ [e] ∧ E.Ahead y e.seg seg := by
        rcases hlast _ P R f1 (by rw [f2, hk]) with h0 | ⟨A', g, h0, h3⟩
        · exact .inl h0
        · have hog := hon g (by rw [f1, h0]; simp)
          obtain ⟨hwf, hstart, hen⟩ := hK.wf g.seg seg y hog hseg
          obtain ⟨p, hp, p1, p2, hpo⟩ := orderAt_piece (t := y) (o := .left) hwf (by rw [hstart]; exact (range_le hog hseg).1) (by simpa using h3)
          exact .inr ⟨A', g, h0, inOrder_of_lt hG hog hseg hc (hK.left _ _ y hog hseg p hp hpo y p1 p2)⟩
      have hd : line.drop k = R := by rw [f1, ← f2]; simp
      rw [hd] at h
      have e3 : line = P ++ [] ++ R := by rw [f1]; simp
      rw [e3]
      exact insertionScan_place hG hseg hst R P [] k k pos (by rw [← e3]; exact hl) (by rw [← e3]; exact hn) f2 (by simp [f2]) hPl (by simp) h

/-! ## Scans -/

/-- What the scans put in the queue: an event of two segments of the line, which are in the order of the event if it is due now. -/
def Seen (E : Env K) (y : K) (line : List Entry) (ev : IEvent K) : Prop :=
  EvDue E ev ∧ (ev.y = y → [ev.left, ev.right].Sublist (line.map Entry.seg))

theorem pair_sublist {l1 l2 : List Entry} {e o : Entry} (ho : o ∈ l2) : [e.seg, o.seg].Sublist ((l1 ++ e :: l2).map Entry.seg) := by
  rw [List.map_append, List.map_cons]
  refine (List.Sublist.cons_cons _ ?_).trans (List.sublist_append_right _ _)
  rw [List.singleton_sublist]; exact List.mem_map_of_mem ho

theorem pair_sublist' {l1 l2 : List Entry} {e o : Entry} (ho : o ∈ l1) : [o.seg, e.seg].Sublist ((l1 ++ e :: l2).map Entry.seg) := by
  rw [List.map_append, List.map_cons]
  exact (List.singleton_sublist.2 (List.mem_map_of_mem (f := Entry.seg) ho)).append (List.singleton_sublist.2 (by simp) : [e.seg].Sublist (e.seg :: l2.map Entry.seg))

variable {line : List Entry} {i : Nat} {q q' : List (IEvent K)}

theorem scanRight_found (hG : E.Generic) (hl : OnLineG E y line) (h : scanRight E y line i q = some q') : ∀ ev ∈ q', ev ∈ q ∨ Seen E y line ev := by
  unfold scanRight at h
  split at h
  · simp at h
  rename_i e he
  by_cases h1 : E.endY e.seg = y
  · rw [if_pos h1, Option.some.injEq] at h; subst h; exact fun ev hev => .inl hev
  rw [if_neg h1] at h
  obtain ⟨l1, l2, e1, e2, _, _⟩ := split_at he
  have hd : line.drop (i + 1) = l2 := by rw [e1, ← e2]; simp
  rw [hd] at h
  refine scanRightLoop_touching (P := fun ev => ev ∈ q ∨ Seen E y line ev) l2 ?_ _ _ _ h fun ev hev => .inl hev
  intro o ho hoy ev hev
  right
  have hon := hl.on
  rw [e1] at hl
  obtain ⟨p1, p2⟩ := hl.pair.2 o ho
  obtain ⟨k1, k2⟩ := touchEvent_ok hG (hon e (by rw [e1]; simp)) (hon o (by rw [e1]; simp [ho])) h1 hoy p1 p2.1 hev
  refine ⟨k1, fun hy => ?_⟩
  rw [(k2 hy).1, (k2 hy).2, e1]
  exact pair_sublist ho

theorem scanLeft_found (hG : E.Generic) (hl : OnLineG E y line) (h : scanLeft E y line i q = some q') : ∀ ev ∈ q', ev ∈ q ∨ Seen E y line ev := by
  unfold scanLeft at h
  split at h
  · simp at h
  rename_i e he
  by_cases h1 : E.endY e.seg = y
  · rw [if_pos h1, Option.some.injEq] at h; subst h; exact fun ev hev => .inl hev
  rw [if_neg h1] at h
  obtain ⟨l1, l2, e1, e2, _, _⟩ := split_at he
  have hd : line.take i = l1 := by rw [e1, ← e2]; simp
  rw [hd] at h
  refine scanLeftLoop_touching (P := fun ev => ev ∈ q ∨ Seen E y line ev) l1.reverse ?_ _ _ _ h fun ev hev => .inl hev
  intro o ho hoy ev hev
  rw [List.mem_reverse] at ho
  right
  have hon := hl.on
  rw [e1] at hl
  obtain ⟨p1, p2⟩ := hl.pair.1 o ho
  obtain ⟨k1, k2⟩ := touchEvent_ok hG (hon o (by rw [e1]; simp [ho])) (hon e (by rw [e1]; simp)) hoy h1 p1 p2.1 hev
  refine ⟨k1, fun hy => ?_⟩
  rw [(k2 hy).1, (k2 hy).2, e1]
  exact pair_sublist' ho

theorem scanBoth_found (hG : E.Generic) (hl : OnLineG E y line) (h : scanBoth E y line i q = some q') : ∀ ev ∈ q', ev ∈ q ∨ Seen E y line ev := by
  unfold scanBoth at h
  rw [Option.bind_eq_some_iff] at h
  obtain ⟨q1, h1, h2⟩ := h
  intro ev hev
  rcases scanLeft_found hG hl h2 ev hev with h3 | h3
  · exact scanRight_found hG hl h1 ev h3
  · exact .inr h3

theorem scanForRemoval_found (hG : E.Generic) (hl : OnLineG E y line) (h : scanForRemoval E y line i q = some q') :
    ∀ ev ∈ q', ev ∈ q ∨ Seen E y line ev := by
  unfold scanForRemoval at h
  split_ifs at h
  · exact scanBoth_found hG hl h
  · simp only [Option.some.injEq] at h; subst h; exact fun ev hev => .inl hev

/-! ## The steps -/

/-- The state of the sweep in the middle of a line. -/
structure GoodG (E : Env K) (y : K) (s : State K) : Prop where
  y_eq : s.y = y
  line : OnLineG E y s.line
  evs : ∀ ev ∈ s.ints, EvDue E ev

theorem evs_of_found {l : List Entry} (hq : ∀ ev ∈ q, EvDue E ev) (h : ∀ ev ∈ q', ev ∈ q ∨ Seen E y l ev) : ∀ ev ∈ q', EvDue E ev := by
  intro ev hev
  rcases h ev hev with h | h
  · exact hq ev h
  · exact h.1

theorem handleEnter_generic (hG : E.Generic) (hpp : E.PP) {s s' : State K} {seg : Nat} (hg : GoodG E y s) (hseg : seg ∈ E.segs)
    (hst : E.startY seg = y) (hdown : E.startY seg ≤ E.endY seg) (hn : ∀ f ∈ s.line, f.seg ≠ seg) (h : handleEnter E s seg = some s') :
    GoodG E y s' ∧ ∀ f ∈ s'.line, f.seg = seg ∨ f.seg ∈ s.line.map Entry.seg := by
  obtain ⟨hy, hl, hq⟩ := hg
  unfold handleEnter at h
  by_cases hh : E.isHorizontal seg = true
  · rw [if_pos hh] at h
    simp only [Option.some.injEq] at h
    subst h
    exact ⟨⟨hy, hl, hq⟩, fun f hf => .inr (List.mem_map_of_mem hf)⟩
  rw [if_neg hh, hy] at h
  have hlt : E.startY seg < E.endY seg := lt_of_le_of_ne hdown (by simpa [Env.isHorizontal] using hh)
  have ho : E.On y seg := ⟨⟨hseg, hlt⟩, hst.le, by rw [← hst]; exact hdown⟩
  split at h
  · simp at h
  rename_i pos hpos
  obtain ⟨A, B, e1, e2, hf⟩ := insertionIdx_place hG hpp ho hst hl hn hpos
  obtain ⟨f1, f2⟩ := hf.sorted hG (by rw [← e1]; exact hl) (by rw [← e1]; exact hn) ho hst
  have hins : ∀ e : Entry, e.seg = seg → OnLineG E y (A ++ e :: B) := by
    intro e he
    rw [e1] at hl hn
    refine ⟨?_, ?_, ?_⟩
    · intro f hf
      rw [List.mem_append, List.mem_cons] at hf
      rcases hf with hf | rfl | hf
      · exact hl.on f (by simp [hf])
      · rw [he]; exact ho
      · exact hl.on f (by simp [hf])
    · rw [List.map_append, List.map_cons, List.nodup_middle, List.nodup_cons, he]
      refine ⟨?_, by rw [← List.map_append]; exact hl.nodup⟩
      rw [← List.map_append]
      intro hm
      obtain ⟨f, h1, h2⟩ := List.mem_map.1 hm
      exact hn f h1 h2
    · have := hl.order
      rw [List.pairwise_append] at this ⊢
      refine ⟨this.1, List.pairwise_cons.2 ⟨fun f hf => by rw [he]; exact f2 f hf, this.2.1⟩, ?_⟩
      intro a ha b hb
      rcases List.mem_cons.1 hb with rfl | hb
      · rw [he]; exact f1 a ha
      · exact this.2.2 a ha b hb
  split at h
  · simp at h
  · rename_i p hp
    unfold handleContinuation at h
    split at h
    · simp at h
    rename_i e he
    dsimp only at h
    rw [Option.map_eq_some_iff] at h
    obtain ⟨q', hq', rfl⟩ := h
    rw [hy] at hq'
    obtain ⟨e', he'⟩ : ∃ e' : Entry, e' = { e with oldSeg := some e.seg, seg := seg, enter := true, exit := true } := ⟨_, rfl⟩
    dsimp only
    rw [← he'] at hq' ⊢
    have hes : e'.seg = seg := by rw [he']
    have hnew : OnLineG E y (s.line.set p e') := by
      have hp' : p = pos ∨ (p = pos - 1 ∧ 0 < pos) := by
        unfold continuationPos at hp
        split at hp
        · simp at hp
        · split_ifs at hp with g1 g2 g3 g4
          · simp only [Option.some.injEq] at hp; exact .inl hp.symm
          · simp only [Option.some.injEq] at hp; exact .inr ⟨hp.symm, g4.1⟩
          · simp at hp
          · simp at hp
      have i1 := hins e' hes
      have hsub : (s.line.set p e').Sublist (A ++ e' :: B) := by
        rcases hp' with rfl | ⟨rfl, h0⟩
        · cases B with
          | nil => rw [e1, ← e2] at he; simp at he
          | cons b B =>
            rw [e1, ← e2, List.set_append_right _ _ (Nat.le_refl _), Nat.sub_self, List.set_cons_zero]
            exact (List.Sublist.refl A).append ((List.sublist_cons_self b B).cons_cons e')
        · rcases List.eq_nil_or_concat A with hA | ⟨A', a, hA⟩
          · rw [hA] at e2; simp at e2; omega
          · rw [List.concat_eq_append] at hA
            have hl : A'.length = pos - 1 := by rw [hA] at e2; simp at e2; omega
            rw [e1, hA, ← hl, List.append_assoc, List.set_append_right _ _ (Nat.le_refl _), Nat.sub_self, List.singleton_append, List.set_cons_zero,
              List.append_assoc]
            exact (List.Sublist.refl A').append (List.sublist_cons_self a (e' :: B))
      exact i1.sublist hsub
    refine ⟨⟨hy, hnew, evs_of_found hq (scanBoth_found hG hnew hq')⟩, ?_⟩
    intro f hf
    rcases List.mem_or_eq_of_mem_set hf with hf | rfl
    · exact .inr (List.mem_map_of_mem hf)
    · exact .inl hes
  · rw [Option.map_eq_some_iff] at h
    obtain ⟨r, hr, rfl⟩ := h
    unfold insertScan at hr
    split_ifs at hr with hle
    dsimp only at hr
    rw [Option.map_eq_some_iff] at hr
    obtain ⟨q', hq', rfl⟩ := hr
    have hl' : s.line.insertIdx pos { Entry.new seg with enter := true, exit := false } = A ++ { Entry.new seg with enter := true, exit := false } :: B := by
      obtain ⟨l1, l2, k1, k2, k3⟩ := split_insert s.line pos { Entry.new seg with enter := true, exit := false } hle
      rw [k3]
      have := List.append_inj (k1.symm.trans e1) (by omega)
      rw [this.1, this.2]
    have i1 := hins { Entry.new seg with enter := true, exit := false } rfl
    rw [← hl'] at i1
    refine ⟨⟨rfl, i1, evs_of_found hq (scanBoth_found hG i1 hq')⟩, ?_⟩
    dsimp only
    rw [hl', e1]
    intro f hf
    rw [List.mem_append, List.mem_cons] at hf
    rcases hf with hf | rfl | hf
    · exact .inr (List.mem_map_of_mem (List.mem_append_left _ hf))
    · exact .inl rfl
    · exact .inr (List.mem_map_of_mem (List.mem_append_right _ hf))

theorem handleAll_enter_generic (hG : E.Generic) (hpp : E.PP) (l : List (K × Nat)) : ∀ {s s' : State K}, GoodG E y s →
    (∀ p ∈ l, p.2 ∈ E.segs ∧ p.1 = E.startY p.2 ∧ E.startY p.2 ≤ E.endY p.2) → (l.map Prod.snd).Nodup → (∀ p ∈ l, ∀ f ∈ s.line, f.seg ≠ p.2) →
    handleAll (handleEnter E) y l s = some s' → GoodG E y s' := by
  induction l with
  | nil =>
    intro s s' hg _ _ _ he
    simp only [handleAll, Option.some.injEq] at he
    subst he
    exact hg
  | cons p l ih =>
    intro s s' hg hl hnd hn he
    simp only [handleAll] at he
    split_ifs at he with h1
    split at he
    · simp at he
    rename_i s1 hs1
    obtain ⟨g1, g2, g3⟩ := hl p (by simp)
    obtain ⟨k1, k2⟩ := handleEnter_generic hG hpp hg g1 (by rw [← g2]; exact h1) g3 (hn p (by simp)) hs1
    rw [List.map_cons, List.nodup_cons] at hnd
    refine ih k1 (fun q hq => hl q (List.mem_cons_of_mem _ hq)) hnd.2 ?_ he
    intro r hr f hf
    rcases k2 f hf with h | h
    · rw [h]
      intro h'
      exact hnd.1 (by rw [h']; exact List.mem_map_of_mem hr)
    · obtain ⟨g, hg1, hg2⟩ := List.mem_map.1 h
      rw [← hg2]
      exact hn r (List.mem_cons_of_mem _ hr) g hg1

theorem handleExit_generic (hG : E.Generic) {s s' : State K} {seg : Nat} (hg : GoodG E y s) (h : handleExit E s seg = some s') : GoodG E y s' := by
  obtain ⟨hy, hl, hq⟩ := hg
  unfold handleExit at h
  split at h
  · simp at h
  rename_i pos hpos
  split at h
  · simp at h
  rename_i e he
  by_cases ho : e.oldSeg = some seg
  · rw [if_pos ho] at h
    simp only [Option.some.injEq] at h
    subst h
    exact ⟨hy, hl, hq⟩
  rw [if_neg ho] at h
  dsimp only at h
  rw [Option.map_eq_some_iff] at h
  obtain ⟨q', hq', rfl⟩ := h
  rw [hy] at hq'
  obtain ⟨l1, l2, e1, e2, e3, -⟩ := split_at he
  have hmap : (s.line.set pos { e with exit := true }).map Entry.seg = s.line.map Entry.seg := by rw [e3, e1]; simp
  have hl' := hl.congr hmap
  exact ⟨hy, hl', evs_of_found hq (scanForRemoval_found hG hl' hq')⟩

theorem handleAll_exit_generic (hG : E.Generic) (l : List (K × Nat)) : ∀ {s s' : State K}, GoodG E y s →
    handleAll (handleExit E) y l s = some s' → GoodG E y s' := by
  induction l with
  | nil =>
    intro s s' hg he
    simp only [handleAll, Option.some.injEq] at he
    subst he
    exact hg
  | cons p l ih =>
    intro s s' hg he
    simp only [handleAll] at he
    split_ifs at he with h1
    split at he
    · simp at he
    rename_i s1 hs1
    exact ih (handleExit_generic hG hg hs1) he

end
end Verif.Sweep
