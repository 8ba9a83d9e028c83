import Verif.BinOp.Model
import Mathlib.Algebra.Group.Int.Defs
import Mathlib.Tactic.Abel

/-! # The winding numbers of two shapes form a group -/

namespace Verif.BinOp

namespace BinaryWinding

/-- topology.rs:82-97: the operations of `BinaryWindingNumber` are those of a commutative group. (Subtraction does not occur in the code.) -/
instance : Zero BinaryWinding := ⟨zero⟩
instance : Add BinaryWinding := ⟨add⟩
instance : Neg BinaryWinding := ⟨fun a => ⟨-a.shapeA, -a.shapeB⟩⟩

instance : AddCommGroup BinaryWinding where
  add_assoc a b c := by change add (add a b) c = add a (add b c); simp [add, Int.add_assoc]
  zero_add a := by change add zero a = a; simp [add, zero]
  add_zero a := by change add a zero = a; simp [add, zero]
  add_comm a b := by change add a b = add b a; simp [add, Int.add_comm]
  neg_add_cancel a := by change add ⟨-a.shapeA, -a.shapeB⟩ a = zero; simp [add, zero]
  nsmul := nsmulRec
  zsmul := zsmulRec

theorem zero_eq : (0 : BinaryWinding) = zero := rfl
theorem neg_eq (a : BinaryWinding) : -a = ⟨-a.shapeA, -a.shapeB⟩ := rfl
theorem add_eq (a b : BinaryWinding) : a + b = ⟨a.shapeA + b.shapeA, a.shapeB + b.shapeB⟩ := rfl

theorem nsmul_eq (n : Nat) (a : BinaryWinding) : n • a = ⟨n * a.shapeA, n * a.shapeB⟩ := by
  induction n with
  | zero => rw [zero_nsmul]; simp [zero_eq, zero]
  | succ n ih =>
    rw [succ_nsmul, ih, add_eq]
    congr 1 <;> push_cast <;> rw [Int.add_mul, Int.one_mul]

theorem zsmul_eq (n : Int) (a : BinaryWinding) : n • a = ⟨n * a.shapeA, n * a.shapeB⟩ := by
  cases n with
  | ofNat n => rw [Int.ofNat_eq_natCast, natCast_zsmul, nsmul_eq]
  | negSucc n =>
    rw [negSucc_zsmul, nsmul_eq, neg_eq, Int.negSucc_eq]
    congr 1 <;> push_cast <;> rw [Int.neg_mul]

theorem single_neg (t b : Bool) : single t (!b) = - single t b := by
  cases t <;> cases b <;> rfl

/-- The winding number of `n` positive turns around the first shape and `m` around the second. -/
theorem turns (n m : Int) : n • single true true + m • single false true = ⟨n, m⟩ := by
  rw [zsmul_eq, zsmul_eq, add_eq]
  simp [single]

end BinaryWinding

end Verif.BinOp
