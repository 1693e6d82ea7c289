import Verif.Lemmas.FlowDensity
/-
The spline depends measurably on its argument and its knots.
-/
set_option linter.unusedSectionVars false
open MeasureTheory ProbabilityTheory
open scoped ENNReal
namespace FlowMC
open Spec
noncomputable section
open Classical

variable {Ω : Type} [MeasurableSpace Ω] {K : ℕ}

theorem measurableSet_correctBin {X : Ω → ℝ} {pos : Ω → Fin (K + 1) → ℝ} (hX : Measurable X) (hp : ∀ i, Measurable fun ω => pos ω i) (i : Fin K) :
    MeasurableSet {ω | correctBin (X ω) (pos ω) i} := by
  have hb : ∀ j : Fin K, MeasurableSet {ω | pos ω j.castSucc ≤ X ω ∧ X ω < pos ω j.succ} := fun j =>
    (measurableSet_le (hp _) hX).inter (measurableSet_lt hX (hp _))
  have hE : MeasurableSet {ω | ∃ j : Fin K, pos ω j.castSucc ≤ X ω ∧ X ω < pos ω j.succ} := by
    rw [Set.setOf_exists]; exact MeasurableSet.iUnion hb
  have : {ω | correctBin (X ω) (pos ω) i} = ({ω | ∃ j : Fin K, pos ω j.castSucc ≤ X ω ∧ X ω < pos ω j.succ} ∩ {ω | pos ω i.castSucc ≤ X ω ∧ X ω < pos ω i.succ}) ∪
      ({ω | ∃ j : Fin K, pos ω j.castSucc ≤ X ω ∧ X ω < pos ω j.succ}ᶜ ∩ {_ω | i.1 = 0}) := by
    ext ω
    simp only [Set.mem_setOf_eq, correctBin, Set.mem_union, Set.mem_inter_iff, Set.mem_compl_iff]
    by_cases h : ∃ j : Fin K, pos ω j.castSucc ≤ X ω ∧ X ω < pos ω j.succ
    · simp only [if_pos h, if_true, h, true_and, not_true, false_and, or_false]
    · simp only [if_neg h, if_false, h, false_and, not_false_iff, true_and, false_or]
  rw [this]
  exact (hE.inter (hb i)).union (hE.compl.inter (MeasurableSet.const _))

theorem measurable_binDot {b : Ω → Fin K → Prop} (hb : ∀ i, MeasurableSet {ω | b ω i}) {v : Ω → Fin K → ℝ} (hv : ∀ i, Measurable fun ω => v ω i) :
    Measurable fun ω => binDot (b ω) (v ω) :=
  Finset.measurable_sum _ fun i _ => (Measurable.ite (hb i) measurable_const measurable_const).mul (hv i)

theorem measurable_splineFwd {X : Ω → ℝ} {xp yp sl : Ω → Fin (K + 1) → ℝ} (hX : Measurable X) (hx : ∀ i, Measurable fun ω => xp ω i)
    (hy : ∀ i, Measurable fun ω => yp ω i) (hs : ∀ i, Measurable fun ω => sl ω i) :
    Measurable (fun ω => (splineFwd (X ω) (xp ω) (yp ω) (sl ω)).1) ∧ Measurable (fun ω => (splineFwd (X ω) (xp ω) (yp ω) (sl ω)).2) := by
  have hb := measurableSet_correctBin hX hx
  have x0 : Measurable fun ω => (binParams (correctBin (X ω) (xp ω)) (xp ω) (yp ω) (sl ω)).x0 := measurable_binDot hb fun i => hx _
  have x1 : Measurable fun ω => (binParams (correctBin (X ω) (xp ω)) (xp ω) (yp ω) (sl ω)).x1 := measurable_binDot hb fun i => hx _
  have y0 : Measurable fun ω => (binParams (correctBin (X ω) (xp ω)) (xp ω) (yp ω) (sl ω)).y0 := measurable_binDot hb fun i => hy _
  have y1 : Measurable fun ω => (binParams (correctBin (X ω) (xp ω)) (xp ω) (yp ω) (sl ω)).y1 := measurable_binDot hb fun i => hy _
  have d0 : Measurable fun ω => (binParams (correctBin (X ω) (xp ω)) (xp ω) (yp ω) (sl ω)).d0 := measurable_binDot hb fun i => hs _
  have d1 : Measurable fun ω => (binParams (correctBin (X ω) (xp ω)) (xp ω) (yp ω) (sl ω)).d1 := measurable_binDot hb fun i => hs _
  have lo := measurableSet_le hX (hx 0)
  have hi := measurableSet_le (hx (Fin.last K)) hX
  have hx0 := hx 0
  have hxl := hx (Fin.last K)
  have hy0 := hy 0
  have hyl := hy (Fin.last K)
  have hs0 := hs 0
  have hsl := hs (Fin.last K)
  constructor
  · simp only [splineFwd]
    refine Measurable.ite hi (by fun_prop) (Measurable.ite lo (by fun_prop) ?_)
    unfold clip BinParams.slopesTerm BinParams.slope BinParams.height BinParams.width
    fun_prop
  · simp only [splineFwd]
    refine Measurable.ite hi (by fun_prop) (Measurable.ite lo (by fun_prop) ?_)
    unfold clip BinParams.slopesTerm BinParams.slope BinParams.height BinParams.width
    fun_prop

theorem measurable_rowKnots {row : Ω → Fin (K * 3 + 1) → ℝ} (hr : ∀ j, Measurable fun ω => row ω j) (c : SplineCfg) (i : Fin (K + 1)) :
    Measurable (fun ω => (rowKnots c (row ω)).xPos i) ∧ Measurable (fun ω => (rowKnots c (row ω)).yPos i) ∧ Measurable (fun ω => (rowKnots c (row ω)).slopes i) := by
  have hk : ∀ (sz : Ω → Fin K → ℝ), (∀ j, Measurable fun ω => sz ω j) → Measurable fun ω => knotPositions c (sz ω) i := by
    intro sz hsz
    unfold knotPositions
    split
    · exact measurable_const
    · split
      · exact measurable_const
      · refine measurable_const.add (Finset.measurable_sum _ fun j _ => ?_)
        split
        · exact hsz j
        · exact measurable_const
  have hn : ∀ (u : Ω → Fin K → ℝ), (∀ j, Measurable fun ω => u ω j) → ∀ t m j, Measurable fun ω => normalizeBinSizes (u ω) t m j := by
    intro u hu t m j
    have e : ∀ j, Measurable fun ω => Real.exp (u ω j) := fun j => (hu j).exp
    unfold normalizeBinSizes softmax
    exact (((e j).div (Finset.measurable_sum _ fun j _ => e j)).mul measurable_const).add measurable_const
  refine ⟨hk _ (hn _ (fun j => hr _) _ _), hk _ (hn _ (fun j => hr _) _ _), ?_⟩
  have := hr ⟨2 * K + i.1, by omega⟩
  simp only [rowKnots, normalizeKnotSlopes, softplus]
  fun_prop

end
end FlowMC
