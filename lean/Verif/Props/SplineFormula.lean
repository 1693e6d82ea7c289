import Verif.Props.Spline
import Verif.Props.Coupling
import Verif.Spec.SplineFormula
/-
C47: the explicit formula of every layer of a rational-quadratic spline flow, down to the conditioner network.
-/
set_option linter.unusedSectionVars false
open scoped BigOperators
namespace FlowMC
open Spec
noncomputable section
open Classical

theorem tanh_eq_tanhE : Real.tanh = tanhE := by
  funext x
  rw [tanhE, Real.tanh_eq_sinh_div_cosh, Real.sinh_eq, Real.cosh_eq]
  have h : Real.exp x + Real.exp (-x) ≠ 0 := by positivity
  field_simp

theorem computes_call (act : ℝ → ℝ) : ∀ {n m : ℕ} (net : MLP n m), Computes act net (net.call act)
  | _, _, .last W b => by
    have : (MLP.last W b).call act = fun x i => (∑ j, W i j * x j) + b i := by
      funext x i; simp only [MLP.call, linear, sumFin_eq]
    rw [this]; exact .last W b
  | _, _, .hidden W b rest => by
    have : (MLP.hidden W b rest).call act = fun x => rest.call act fun j => act ((∑ i, W j i * x i) + b j) := by
      funext x; simp only [MLP.call, linear, sumFin_eq]
    rw [this]; exact .hidden W b rest _ (computes_call act rest)

theorem computes_unique {act : ℝ → ℝ} {n m : ℕ} {net : MLP n m} {g : (Fin n → ℝ) → Fin m → ℝ} (h : Computes act net g) : g = net.call act := by
  induction h with
  | last W b => funext x i; simp only [MLP.call, linear, sumFin_eq]
  | hidden W b rest g _ ih => subst ih; funext x; simp only [MLP.call, linear, sumFin_eq]

theorem knotPositions_eq_knot {K : ℕ} (c : SplineCfg) (u : Fin K → ℝ) (hK : 0 < K) (j : Fin (K + 1)) :
    knotPositions c (normalizeBinSizes u (c.rangeMax - c.rangeMin) c.minBinSize) j = knot u c.rangeMin c.rangeMax c.minBinSize j.1 := by
  have hsz : ∀ i, normalizeBinSizes u (c.rangeMax - c.rangeMin) c.minBinSize i =
      c.minBinSize + (c.rangeMax - c.rangeMin - K * c.minBinSize) * (Real.exp (u i) / ∑ i', Real.exp (u i')) := by
    intro i; simp only [normalizeBinSizes, softmax]; ring
  have hsum := normalizeBinSizes_sum u (c.rangeMax - c.rangeMin) c.minBinSize hK
  unfold knotPositions knot
  split_ifs with h0 hl
  · simp [h0]
  · have : ∀ i : Fin K, (if i.1 < j.1 then c.minBinSize + (c.rangeMax - c.rangeMin - K * c.minBinSize) * (Real.exp (u i) / ∑ i', Real.exp (u i')) else 0) =
        normalizeBinSizes u (c.rangeMax - c.rangeMin) c.minBinSize i := by
      intro i; rw [if_pos (by have := i.2; omega), hsz]
    simp only [this, hsum]; ring
  · simp only [hsz]

theorem normalizeKnotSlopes_eq {K : ℕ} (u : Fin K → ℝ) {m : ℝ} (hm : m < 1) (i : Fin K) : normalizeKnotSlopes u m i = knotSlope (u i) m := by
  have h1 : 0 < Real.exp (1 - m) - 1 := by
    have := Real.add_one_lt_exp (x := 1 - m) (by linarith); linarith
  simp only [normalizeKnotSlopes, softplus, knotSlope, Real.exp_add, Real.exp_log h1]
  rw [add_comm, mul_comm]

/-- The network's outputs read in one row, as a function of the position in the row. -/
theorem splineValue_of {K : ℕ} (c : SplineCfg) (row : Fin (K * 3 + 1) → ℝ) (p : ℕ → ℝ) (hp : ∀ q (h : q < K * 3 + 1), p q = row ⟨q, h⟩) (hK : 0 < K) (hb : 0 < c.minBinSize)
    (hm : 0 ≤ c.minKnotSlope) (hr : K * c.minBinSize ≤ c.rangeMax - c.rangeMin) (hs : c.minKnotSlope < 1) (x : ℝ) :
    SplineValue (fun i : Fin K => p i.1) (fun i : Fin K => p (K + i.1)) (fun j => p (2 * K + j)) c.rangeMin c.rangeMax c.minBinSize c.minKnotSlope x
      (splineFwd x (rowKnots c row).xPos (rowKnots c row).yPos (rowKnots c row).slopes).1 := by
  have hv := C39_valid c row hK hb hm hr hs
  obtain ⟨hx0, hxl, hy0, hyl, _, _, _⟩ := C39_knots c row hK hr hs
  have hX : ∀ j : Fin (K + 1), (rowKnots c row).xPos j = knot (fun i : Fin K => p i.1) c.rangeMin c.rangeMax c.minBinSize j.1 := by
    intro j
    have e : (fun i : Fin K => p i.1) = fun i : Fin K => row ⟨i.1, by omega⟩ := funext fun i => hp _ _
    rw [e]; exact knotPositions_eq_knot c _ hK j
  have hY : ∀ j : Fin (K + 1), (rowKnots c row).yPos j = knot (fun i : Fin K => p (K + i.1)) c.rangeMin c.rangeMax c.minBinSize j.1 := by
    intro j
    have e : (fun i : Fin K => p (K + i.1)) = fun i : Fin K => row ⟨K + i.1, by omega⟩ := funext fun i => hp _ _
    rw [e]; exact knotPositions_eq_knot c _ hK j
  have hS : ∀ j : Fin (K + 1), (rowKnots c row).slopes j = knotSlope (p (2 * K + j.1)) c.minKnotSlope := by
    intro j
    rw [hp _ (by omega)]
    exact normalizeKnotSlopes_eq (fun i : Fin (K + 1) => row ⟨2 * K + i.1, by omega⟩) hs j
  constructor
  · intro h
    rw [splineFwd_left hv (by rw [hx0]; exact h), hx0, hy0, hS 0]
    simp only [Fin.val_zero]; ring
  · intro h
    rw [splineFwd_right (by rw [hxl]; exact h), hxl, hyl, hS (Fin.last K)]
    simp only [Fin.val_last]; ring
  · intro j hj h0 h1
    have e := splineFwd_bin hv ⟨j, hj⟩ (x := x) (by rw [hX]; exact h0) (by rw [hX]; exact h1)
    rw [e]
    simp only [BinParams.val, BinParams.rel, BinParams.den, BinParams.slope, BinParams.slopesTerm, BinParams.height, BinParams.width, binAt, hX, hY, hS, rationalQuadratic,
      Fin.val_succ, Fin.val_castSucc]
    congr 2 <;> ring_nf
  · intro h0 h1
    obtain ⟨i, hi0, hi1⟩ := locate (rowKnots c row).xPos x (by rw [hx0]; exact h0.le) (by rw [hxl]; exact h1)
    refine ⟨i.1, i.2, ?_, ?_⟩
    · have := hX i.castSucc; rw [Fin.val_castSucc] at this; rw [← this]; exact hi0
    · have := hX i.succ; rw [Fin.val_succ] at this; rw [← this]; exact hi1.le

/-- **C47 (what a layer computes).** Layer `i` of a rational-quadratic spline flow, with any weights: there is one function `g`, the one the layer's network computes with the hyperbolic tangent
as activation, such that for every input `x` the coordinates `f` with `f + i` odd are kept, and every other coordinate goes through the rational-quadratic spline whose raw widths, heights and
slopes are the consecutive entries of the `f`-th row of `g` at the kept coordinates (the others replaced by 0). -/
theorem C47_layer {d K : ℕ} (tiny : ℝ) (c : SplineCfg) (i : ℕ) (l : SplineLayer d K) (hmask : l.mask = splineMask d i) (hK : 0 < K) (hb : 0 < c.minBinSize)
    (hm : 0 ≤ c.minKnotSlope) (hr : K * c.minBinSize ≤ c.rangeMax - c.rangeMin) (hs : c.minKnotSlope < 1) (g : (Fin d → ℝ) → Fin (d * (K * 3 + 1)) → ℝ) (hg : Computes tanhE l.mlp g)
    (x : Pos ℝ d) (f : Fin d) (p : ℕ → ℝ)
    (hp : ∀ q (h : f.1 * (K * 3 + 1) + q < d * (K * 3 + 1)), p q = g (fun j : Fin d => if (j.1 + i) % 2 = 1 then x j else 0) ⟨_, h⟩) :
    ((f.1 + i) % 2 = 1 → ((l.spline tiny c).forward x).1 f = x f) ∧
    ((f.1 + i) % 2 = 0 → SplineValue (fun n : Fin K => p n.1) (fun n : Fin K => p (K + n.1)) (fun n => p (2 * K + n)) c.rangeMin c.rangeMax c.minBinSize c.minKnotSlope (x f)
      (((l.spline tiny c).forward x).1 f)) := by
  have hg' := computes_unique hg
  rw [← tanh_eq_tanhE] at hg'
  have hcond : (fun j => x j * l.mask j) = fun j : Fin d => if (j.1 + i) % 2 = 1 then x j else 0 := by
    funext j
    rw [hmask]
    rcases Nat.mod_two_eq_zero_or_one (j.1 + i) with h | h <;> simp [splineMask, h]
  refine ⟨fun h => ?_, fun h => ?_⟩
  · simp [CouplingLayer.forward, SplineLayer.spline, hmask, splineMask, h]
  · have e : ((l.spline tiny c).forward x).1 f = (splineFwd (x f) (rowKnots c (paramRow (g fun j : Fin d => if (j.1 + i) % 2 = 1 then x j else 0) f)).xPos
        (rowKnots c (paramRow (g fun j : Fin d => if (j.1 + i) % 2 = 1 then x j else 0) f)).yPos
        (rowKnots c (paramRow (g fun j : Fin d => if (j.1 + i) % 2 = 1 then x j else 0) f)).slopes).1 := by
      have h1 : ((l.spline tiny c).forward x).1 f = ((l.spline tiny c).bij.fwd x (fun j => x j * l.mask j)).1 f := by
        simp [CouplingLayer.forward, SplineLayer.spline, hmask, splineMask, h]
      rw [h1, hcond, hg']
      rfl
    rw [e]
    exact splineValue_of c _ p (fun q h => hp q _) hK hb hm hr hs (x f)

/-- **C47 (the networks exist).** Every conditioner network computes exactly one function; so the description of a layer is never vacuous. -/
theorem C47_network {d K : ℕ} (l : SplineLayer d K) : ∃! g : (Fin d → ℝ) → Fin (d * (K * 3 + 1)) → ℝ, Computes tanhE l.mlp g :=
  ⟨l.mlp.call tanhE, computes_call _ _, fun _ h => computes_unique h⟩

/-- **C47 (the constructed layers).** Layer `i` the constructor makes has the mask and, with at least one bin and a range of at least `K` ten-thousandths, the constants `C47_layer` asks for. -/
theorem C47_layers (dr : MLPDraws) (d K nLayers : ℕ) (hidden : List ℕ) (k : Key) (lo hi : ℝ) (base : Option (BaseDist d)) (mean var : Option (Pos ℝ d)) (hr : K / 10000 ≤ hi - lo)
    (i : ℕ) (l : SplineLayer d K) (hl : (SplineFlow.init dr d K nLayers hidden k lo hi base mean var).layers[i]? = some l) :
    let c := (SplineFlow.init dr d K nLayers hidden k lo hi base mean var).cfg
    l.mask = splineMask d i ∧ c.rangeMin = lo ∧ c.rangeMax = hi ∧ 0 < c.minBinSize ∧ 0 ≤ c.minKnotSlope ∧ K * c.minBinSize ≤ c.rangeMax - c.rangeMin ∧ c.minKnotSlope < 1 := by
  simp only [SplineFlow.init, List.getElem?_map, Option.map_eq_some_iff] at hl
  obtain ⟨j, hj, rfl⟩ := hl
  obtain ⟨_, rfl⟩ := List.getElem?_eq_some_iff.1 hj
  refine ⟨by simp [splineMakeLayer], rfl, rfl, by norm_num [SplineFlow.init], by norm_num [SplineFlow.init], ?_, by norm_num [SplineFlow.init]⟩
  show (K : ℝ) * (1 / 10000) ≤ hi - lo
  linarith

/-- The specification has concrete values: with one bin on `[-1, 1]` and raw slopes 0 (so slopes 1), the spline value at 0 is 0. -/
example (y : ℝ) (h : SplineValue (K := 1) (fun _ => 0) (fun _ => 0) (fun _ => 0) (-1) 1 (1 / 10000) (1 / 10000) 0 y) : y = 0 := by
  have hs : knotSlope 0 (1 / 10000) = 1 := by
    simp only [knotSlope, Real.exp_zero, mul_one]
    rw [add_sub_cancel, Real.log_exp]; ring
  have h0 : knot (K := 1) (fun _ => 0) (-1) 1 (1 / 10000) 0 = -1 := by simp [knot]
  have h1 : knot (K := 1) (fun _ => 0) (-1) 1 (1 / 10000) 1 = 1 := by norm_num [knot]
  have := h.inside 0 one_pos (by rw [h0]; norm_num) (by rw [zero_add, h1]; norm_num)
  rw [zero_add, h0, h1, hs] at this
  rw [this]
  norm_num [rationalQuadratic]

/-- The layers of a constructed flow in dimension 2 with 8 bins on `[-10, 10]`, as in the library's bundles. -/
example (dr : MLPDraws) (k : Key) (l : SplineLayer 2 8) (hl : (SplineFlow.init dr 2 8 4 [64, 64] k (-10) 10 none none none).layers[1]? = some l) (tiny : ℝ) (x : Pos ℝ 2) :
    ((l.spline tiny (SplineFlow.init dr 2 8 4 [64, 64] k (-10) 10 none none none).cfg).forward x).1 0 = x 0 := by
  obtain ⟨h1, h2, h3, h4, h5, h6, h7⟩ := C47_layers dr 2 8 4 [64, 64] k (-10) 10 none none none (by norm_num) 1 l hl
  obtain ⟨g, hg, _⟩ := C47_network l
  exact (C47_layer tiny _ 1 l h1 (by norm_num) h4 h5 h6 h7 g hg x 0 (fun q => if h : 0 * (8 * 3 + 1) + q < 2 * (8 * 3 + 1) then g _ ⟨_, h⟩ else 0)
    (fun q h => dif_pos h)).1 rfl

end
end FlowMC
