import Verif.Jax.Core
import Mathlib.Analysis.SpecialFunctions.Log.Basic
import Mathlib.Analysis.SpecialFunctions.Trigonometric.Basic
import Mathlib.Analysis.SpecialFunctions.Trigonometric.DerivHyp
/-
Special values of IEEE-754 arithmetic: the laws used (they hold for every rounding mode and precision) and `XR`, real numbers
extended by `+inf`, `-inf`, `nan`, as a witness that the laws are consistent.
-/
namespace FlowMC

/-- IEEE-754 rules for NaN and infinities under `+`, `-`, unary `-` and `<`. -/
class Ieee (F : Type) [Add F] [Sub F] [Neg F] [FCmp F] where
  isNaN : F → Prop
  negInf : F
  posInf : F
  nan_add (a b : F) : isNaN a ∨ isNaN b → isNaN (a + b)
  nan_sub (a b : F) : isNaN a ∨ isNaN b → isNaN (a - b)
  nan_neg (a : F) : isNaN a → isNaN (-a)
  negInf_add (b : F) : negInf + b = negInf ∨ isNaN (negInf + b)
  add_negInf (b : F) : b + negInf = negInf ∨ isNaN (b + negInf)
  negInf_sub (b : F) : negInf - b = negInf ∨ isNaN (negInf - b)
  posInf_add (b : F) : posInf + b = posInf ∨ isNaN (posInf + b)
  sub_posInf (a : F) : a - posInf = negInf ∨ isNaN (a - posInf)
  neg_negInf : -negInf = posInf
  neg_neg (a : F) : - -a = a
  lt_nan (a b : F) : isNaN b → FCmp.blt a b = false
  lt_negInf (a : F) : FCmp.blt a negInf = false

/-- NaN or `-inf`: a value of the log-density that must never be accepted. -/
def Ieee.Bad {F : Type} [Add F] [Sub F] [Neg F] [FCmp F] [Ieee F] (a : F) : Prop := Ieee.isNaN a ∨ a = Ieee.negInf

noncomputable section

/-- The real numbers as number type of the model (exact arithmetic). -/
instance : Transc ℝ := ⟨Real.exp, Real.log, Real.sqrt, Real.tanh, Real.pi⟩
open Classical in
instance : FCmp ℝ := ⟨fun a b => decide (a < b)⟩

@[simp] theorem blt_real (a b : ℝ) : FCmp.blt a b = true ↔ a < b := by simp [FCmp.blt]

/-- Reals with NaN and infinities. -/
inductive XR
  | fin (x : ℝ) | pinf | ninf | nan

namespace XR
def add : XR → XR → XR
  | fin a, fin b => fin (a + b)
  | nan, _ => nan
  | _, nan => nan
  | pinf, ninf => nan
  | ninf, pinf => nan
  | pinf, _ => pinf
  | _, pinf => pinf
  | ninf, _ => ninf
  | _, ninf => ninf
def neg : XR → XR
  | fin a => fin (-a)
  | pinf => ninf
  | ninf => pinf
  | nan => nan
instance : Add XR := ⟨add⟩
instance : Neg XR := ⟨neg⟩
instance : Sub XR := ⟨fun a b => add a (neg b)⟩
open Classical in
def blt : XR → XR → Bool
  | fin a, fin b => decide (a < b)
  | nan, _ => false
  | _, nan => false
  | ninf, ninf => false
  | ninf, _ => true
  | _, ninf => false
  | pinf, _ => false
  | fin _, pinf => true
instance : FCmp XR := ⟨blt⟩

theorem add_def (a b : XR) : a + b = add a b := rfl
theorem sub_def (a b : XR) : a - b = add a (neg b) := rfl
theorem neg_def (a : XR) : -a = neg a := rfl

instance : Ieee XR where
  isNaN a := a = nan
  negInf := ninf
  posInf := pinf
  nan_add a b h := by rw [add_def]; rcases h with rfl | rfl <;> cases ‹XR› <;> rfl
  nan_sub a b h := by rw [sub_def]; rcases h with rfl | rfl <;> cases ‹XR› <;> rfl
  nan_neg a h := by subst h; rfl
  negInf_add b := by rw [add_def]; cases b <;> simp [add]
  add_negInf b := by rw [add_def]; cases b <;> simp [add]
  negInf_sub b := by rw [sub_def]; cases b <;> simp [add, neg]
  posInf_add b := by rw [add_def]; cases b <;> simp [add]
  sub_posInf a := by rw [sub_def]; cases a <;> simp [add, neg]
  neg_negInf := rfl
  neg_neg a := by rw [neg_def, neg_def]; cases a <;> simp [neg]
  lt_nan a b h := by subst h; cases a <;> rfl
  lt_negInf a := by cases a <;> rfl

/-- The remaining operations of the number interface, needed to run the kernels on `XR`. -/
instance : Transc XR where
  exp | fin a => fin (Real.exp a) | pinf => pinf | ninf => fin 0 | nan => nan
  log | fin a => if a < 0 then nan else if a = 0 then ninf else fin (Real.log a) | pinf => pinf | _ => nan
  sqrt | fin a => if a < 0 then nan else fin (Real.sqrt a) | pinf => pinf | _ => nan
  tanh | fin a => fin (Real.tanh a) | pinf => fin 1 | ninf => fin (-1) | nan => nan
  pi := fin Real.pi
instance : Zero XR := ⟨fin 0⟩
instance : One XR := ⟨fin 1⟩
instance : NatCast XR := ⟨fun n => fin n⟩
open Classical in
def mul : XR → XR → XR
  | fin a, fin b => fin (a * b)
  | nan, _ => nan
  | _, nan => nan
  | fin a, b => if a = 0 then nan else if 0 < a then b else neg b
  | b, fin a => if a = 0 then nan else if 0 < a then b else neg b
  | pinf, b => b
  | ninf, b => neg b
instance : Mul XR := ⟨mul⟩
open Classical in
/-- Reciprocal; `1/0 = +inf` (the sign of zero is not represented). -/
def inv : XR → XR
  | fin a => if a = 0 then pinf else fin a⁻¹
  | nan => nan
  | _ => fin 0
instance : Div XR := ⟨fun a b => mul a (inv b)⟩
end XR
end
end FlowMC
