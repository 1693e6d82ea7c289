import Verif.Props.Spline
import Verif.Lemmas.Transport
import Verif.Lemmas.Gaussian
/-
C37 (masked coupling layers), C38 (RealNVP), C43 (spline flow): invertibility and log-determinants.
-/
set_option linter.unusedSectionVars false
open MeasureTheory
open scoped ENNReal
namespace FlowMC
open Spec
noncomputable section
open Classical

variable {d : ℕ}

/-! ### C37 -/

theorem coupling_cond {l : CouplingLayer d} (hm : ZeroOne l.mask) (x r : Pos ℝ d) :
    (fun i => ((1 - l.mask i) * r i + l.mask i * x i) * l.mask i) = fun i => x i * l.mask i := by
  funext i
  rcases hm i with h | h <;> rw [h] <;> ring

/-- C37: masked coordinates pass through unchanged, in both directions. -/
theorem C37_passthrough (l : CouplingLayer d) (x : Pos ℝ d) (i : Fin d) (h : l.mask i = 1) : (l.forward x).1 i = x i ∧ (l.inverse x).1 i = x i := by
  simp [CouplingLayer.forward, CouplingLayer.inverse, h]

/-- C37: unmasked coordinates are transformed by the inner bijector, conditioned on the masked ones. -/
theorem C37_transformed (l : CouplingLayer d) (x : Pos ℝ d) (i : Fin d) (h : l.mask i = 0) :
    (l.forward x).1 i = (l.bij.fwd x (fun j => x j * l.mask j)).1 i := by simp [CouplingLayer.forward, h]

/-- C37: for a 0/1 mask and an elementwise invertible inner bijector the layer's two directions invert each other, with opposite log-determinants. -/
theorem C37_inverse_pair (l : CouplingLayer d) (hm : ZeroOne l.mask) (hb : Elementwise l.bij) : InversePair l.forward l.inverse := by
  have key1 : ∀ x i, l.mask i = 0 → (l.bij.inv (l.forward x).1 (fun j => (l.forward x).1 j * l.mask j)).1 i = x i ∧
      (l.bij.inv (l.forward x).1 (fun j => (l.forward x).1 j * l.mask j)).2 i = -(l.bij.fwd x (fun j => x j * l.mask j)).2 i := by
    intro x i h
    have hc : (fun j => (l.forward x).1 j * l.mask j) = fun j => x j * l.mask j := coupling_cond hm x _
    rw [hc]
    have hl := hb.inv_local (l.forward x).1 (l.bij.fwd x (fun j => x j * l.mask j)).1 (fun j => x j * l.mask j) i (C37_transformed l x i h)
    rw [hl.1, hl.2, hb.left, hb.logdet_left]
    exact ⟨rfl, rfl⟩
  have key2 : ∀ y i, l.mask i = 0 → (l.bij.fwd (l.inverse y).1 (fun j => (l.inverse y).1 j * l.mask j)).1 i = y i ∧
      (l.bij.fwd (l.inverse y).1 (fun j => (l.inverse y).1 j * l.mask j)).2 i = -(l.bij.inv y (fun j => y j * l.mask j)).2 i := by
    intro y i h
    have hc : (fun j => (l.inverse y).1 j * l.mask j) = fun j => y j * l.mask j := coupling_cond hm y _
    rw [hc]
    have ht : (l.inverse y).1 i = (l.bij.inv y (fun j => y j * l.mask j)).1 i := by simp [CouplingLayer.inverse, h]
    have hl := hb.fwd_local (l.inverse y).1 (l.bij.inv y (fun j => y j * l.mask j)).1 (fun j => y j * l.mask j) i ht
    rw [hl.1, hl.2, hb.right, hb.logdet_right]
    exact ⟨rfl, rfl⟩
  refine ⟨fun x => funext fun i => ?_, fun y => funext fun i => ?_, fun x => ?_, fun y => ?_⟩
  · rcases hm i with h | h
    · rw [← (key1 x i h).1]; simp [CouplingLayer.inverse, h]
    · rw [(C37_passthrough l _ i h).2, (C37_passthrough l _ i h).1]
  · rcases hm i with h | h
    · rw [← (key2 y i h).1]; simp [CouplingLayer.forward, h]
    · rw [(C37_passthrough l _ i h).1, (C37_passthrough l _ i h).2]
  · show sumFin _ = -sumFin _
    rw [sumFin_eq, sumFin_eq, ← Finset.sum_neg_distrib]
    refine Finset.sum_congr rfl fun i _ => ?_
    rcases hm i with h | h
    · rw [(key1 x i h).2]; ring
    · rw [h]; ring
  · show sumFin _ = -sumFin _
    rw [sumFin_eq, sumFin_eq, ← Finset.sum_neg_distrib]
    refine Finset.sum_congr rfl fun i _ => ?_
    rcases hm i with h | h
    · rw [(key2 y i h).2]; ring
    · rw [h]; ring

/-- C37: `MLPAffine` is elementwise invertible for any two networks and any `dt`. -/
theorem C37_mlpAffine (sc sh : Pos ℝ d → Pos ℝ d) (dt : ℝ) : Elementwise (mlpAffine sc sh dt) := by
  have e : ∀ a : ℝ, Real.exp a * Real.exp (-a) = 1 := fun a => by rw [← Real.exp_add, add_neg_cancel, Real.exp_zero]
  refine ⟨fun x x' c i h => ?_, fun x x' c i h => ?_, fun x c => funext fun i => ?_, fun y c => funext fun i => ?_, fun _ _ _ => rfl, fun y c i => ?_⟩
  · simp [mlpAffine, h]
  · simp [mlpAffine, h]
  · simp only [mlpAffine]
    rw [mul_assoc, e]; ring
  · simp only [mlpAffine]
    rw [sub_add_cancel, mul_assoc, mul_comm (Real.exp _), e, mul_one]
  · simp [mlpAffine]

/-- C37: `ScalarAffine` is elementwise invertible. -/
theorem C37_scalarAffine (scale shift : ℝ) : Elementwise (scalarAffine (d := d) scale shift) := by
  have e : ∀ a : ℝ, Real.exp a * Real.exp (-a) = 1 := fun a => by rw [← Real.exp_add, add_neg_cancel, Real.exp_zero]
  refine ⟨fun x x' c i h => ?_, fun x x' c i h => ?_, fun x c => funext fun i => ?_, fun y c => funext fun i => ?_, fun _ _ _ => rfl, fun y c i => ?_⟩
  · simp [scalarAffine, h]
  · simp [scalarAffine, h]
  · simp only [scalarAffine]
    rw [mul_assoc, e]; ring
  · simp only [scalarAffine]
    rw [sub_add_cancel, mul_assoc, mul_comm (Real.exp _), e, mul_one]
  · simp [scalarAffine]

/-- The knots feature `f` uses under condition `c`. -/
def condKnots {K : ℕ} (c : SplineCfg) (net : Pos ℝ d → Fin (d * (K * 3 + 1)) → ℝ) (cond : Pos ℝ d) (f : Fin d) : Knots K :=
  rowKnots c (paramRow (net cond) f)

/-- C37: the spline bijector is elementwise invertible when its knots are valid and the guard of the quadratic formula is inactive. -/
theorem C37_rqSpline {K : ℕ} (tiny : ℝ) (c : SplineCfg) (net : Pos ℝ d → Fin (d * (K * 3 + 1)) → ℝ)
    (hv : ∀ cond f, ValidKnots (condKnots c net cond f).xPos (condKnots c net cond f).yPos (condKnots c net cond f).slopes)
    (ht : ∀ cond f, ClipInactive tiny (condKnots c net cond f).xPos (condKnots c net cond f).yPos (condKnots c net cond f).slopes) :
    Elementwise (rqSpline tiny c net) := by
  refine ⟨fun x x' cond i h => ?_, fun x x' cond i h => ?_, fun x cond => funext fun i => ?_, fun y cond => funext fun i => ?_, fun x cond i => ?_, fun y cond i => ?_⟩
  · simp [rqSpline, h]
  · simp [rqSpline, h]
  · exact congrArg Prod.fst (C41_inv_fwd (hv cond i) (ht cond i) (x i))
  · exact congrArg Prod.fst (C41_fwd_inv (hv cond i) (ht cond i) (y i))
  · exact congrArg Prod.snd (C41_inv_fwd (hv cond i) (ht cond i) (x i))
  · exact congrArg Prod.snd (C41_fwd_inv (hv cond i) (ht cond i) (y i))

/-! ### Sequences of layers -/

/-- Apply maps one after the other, adding up the log-determinants. -/
def seqMaps {X : Type} : List (X → X × ℝ) → X → X × ℝ
  | [], x => (x, 0)
  | f :: fs, x => ((seqMaps fs (f x).1).1, (f x).2 + (seqMaps fs (f x).1).2)

theorem seqMaps_append {X : Type} (fs gs : List (X → X × ℝ)) (x : X) :
    seqMaps (fs ++ gs) x = ((seqMaps gs (seqMaps fs x).1).1, (seqMaps fs x).2 + (seqMaps gs (seqMaps fs x).1).2) := by
  induction fs generalizing x with
  | nil => simp [seqMaps]
  | cons f fs ih => simp [seqMaps, ih, add_assoc]

theorem scan_seqMaps {X L : Type} (F : L → X → X × ℝ) (G : X × ℝ → L → (X × ℝ) × Unit) (hG : ∀ s l, (G s l).1 = ((F l s.1).1, s.2 + (F l s.1).2)) (ls : List L) (x : X) (a : ℝ) :
    (scan G (x, a) ls).1 = ((seqMaps (ls.map F) x).1, a + (seqMaps (ls.map F) x).2) := by
  induction ls generalizing x a with
  | nil => simp [scan, seqMaps]
  | cons l ls ih =>
    simp only [scan, List.map_cons, seqMaps]
    rw [hG, ih]
    simp [add_assoc]

theorem seqMaps_inverse {X L : Type} (F G : L → X → X × ℝ) (ls : List L) (h : ∀ l ∈ ls, InversePair (F l) (G l)) :
    InversePair (seqMaps (ls.map F)) (seqMaps (ls.reverse.map G)) := by
  induction ls with
  | nil => exact ⟨fun _ => rfl, fun _ => rfl, fun _ => by simp [seqMaps], fun _ => by simp [seqMaps]⟩
  | cons l ls ih =>
    have h0 := h l (by simp)
    have hs := ih fun l' hl' => h l' (by simp [hl'])
    have eF : ∀ x, seqMaps (List.map F (l :: ls)) x = ((seqMaps (ls.map F) (F l x).1).1, (F l x).2 + (seqMaps (ls.map F) (F l x).1).2) := fun _ => rfl
    have eG : ∀ y, seqMaps ((l :: ls).reverse.map G) y = ((G l (seqMaps (ls.reverse.map G) y).1).1, (seqMaps (ls.reverse.map G) y).2 + (G l (seqMaps (ls.reverse.map G) y).1).2) := by
      intro y
      rw [List.reverse_cons, List.map_append, seqMaps_append]
      simp [seqMaps]
    refine ⟨fun x => ?_, fun y => ?_, fun x => ?_, fun y => ?_⟩
    · rw [eG, eF]; simp only [hs.left, h0.left]
    · rw [eF, eG]; simp only [h0.right, hs.right]
    · rw [eG, eF]; simp only [hs.left, hs.logdet_left, h0.logdet_left]; ring
    · rw [eF, eG]; simp only [h0.right, hs.logdet_right, h0.logdet_right]; ring

/-! ### C38 -/

theorem RealNVP.forward_eq (m : RealNVP d) (x : Pos ℝ d) : m.forward x = seqMaps (m.layers.map fun l => l.coupling.forward) x := by
  rw [RealNVP.forward, scan_seqMaps (fun l : NVPLayer d => l.coupling.forward) _ (fun _ _ => rfl)]
  simp

theorem RealNVP.inverse_eq (m : RealNVP d) (x : Pos ℝ d) : m.inverse x = seqMaps (m.layers.reverse.map fun l => l.coupling.inverse) x := by
  rw [RealNVP.inverse, scan_seqMaps (fun l : NVPLayer d => l.coupling.inverse) _ (fun _ _ => rfl)]
  simp

/-- C38: with 0/1 masks `RealNVP.inverse` inverts `RealNVP.forward` in both orders with opposite log-determinants, for all weights, layer counts and inputs. -/
theorem C38_inverse_pair (m : RealNVP d) (hm : ∀ l ∈ m.layers, ZeroOne l.mask) : InversePair m.forward m.inverse := by
  have := seqMaps_inverse (fun l : NVPLayer d => l.coupling.forward) (fun l => l.coupling.inverse) m.layers
    fun l hl => C37_inverse_pair l.coupling (hm l hl) (C37_mlpAffine _ _ _)
  rw [show m.forward = _ from funext m.forward_eq, show m.inverse = _ from funext m.inverse_eq]
  exact this

/-- C38: the masks the constructor makes are 0/1: even layers pass the first half through, odd layers the second half. -/
theorem C38_masks (i : ℕ) : ZeroOne (nvpMask d i) ∧ ∀ j : Fin d, nvpMask d i j = 1 ↔ (i % 2 = 0 ↔ j.1 < d / 2) := by
  constructor
  · intro j
    simp only [nvpMask]
    split <;> split <;> simp
  · intro j
    simp only [nvpMask]
    split <;> split <;> simp [*]

/-- C38: every constructed model is invertible. -/
theorem C38_constructed (dr : MLPDraws) (nLayers nHidden : ℕ) (k : Key) (base : Option (BaseDist d)) (mean var : Option (Pos ℝ d)) :
    InversePair (RealNVP.init dr d nLayers nHidden k base mean var).forward (RealNVP.init dr d nLayers nHidden k base mean var).inverse := by
  refine C38_inverse_pair _ fun l hl => ?_
  simp only [RealNVP.init, List.mem_map, List.mem_range] at hl
  obtain ⟨i, _, rfl⟩ := hl
  exact (C38_masks i).1

/-- C38: the stand-alone `AffineCoupling` layer is invertible too. -/
theorem C38_affineCoupling (l : AffineCoupling d) (hm : ZeroOne l.mask) : InversePair l.forward l.inverse := by
  have e : ∀ a : ℝ, Real.exp a * Real.exp (-a) = 1 := fun a => by rw [← Real.exp_add, add_neg_cancel, Real.exp_zero]
  have off : ∀ x i, l.mask i = 0 → l.s x i = 0 ∧ l.t x i = 0 := by
    intro x i h; simp [AffineCoupling.s, AffineCoupling.t, h]
  have cf : ∀ x, (fun j => (l.forward x).1 j * (1 - l.mask j)) = fun j => x j * (1 - l.mask j) := by
    intro x; funext j
    rcases hm j with h | h
    · simp [AffineCoupling.forward, off x j h]
    · simp [h]
  have ci : ∀ x, (fun j => (l.inverse x).1 j * (1 - l.mask j)) = fun j => x j * (1 - l.mask j) := by
    intro x; funext j
    rcases hm j with h | h
    · simp [AffineCoupling.inverse, off x j h]
    · simp [h]
  have sf : ∀ x, l.s (l.forward x).1 = l.s x := fun x => by unfold AffineCoupling.s; rw [cf]
  have tf : ∀ x, l.t (l.forward x).1 = l.t x := fun x => by unfold AffineCoupling.t; rw [cf]
  have si : ∀ x, l.s (l.inverse x).1 = l.s x := fun x => by unfold AffineCoupling.s; rw [ci]
  have ti : ∀ x, l.t (l.inverse x).1 = l.t x := fun x => by unfold AffineCoupling.t; rw [ci]
  refine ⟨fun x => funext fun i => ?_, fun y => funext fun i => ?_, fun x => ?_, fun y => ?_⟩
  · show (l.forward x).1 i * Real.exp (-l.s (l.forward x).1 i) - l.t (l.forward x).1 i = x i
    rw [sf, tf]
    show (x i + l.t x i) * Real.exp (l.s x i) * Real.exp (-l.s x i) - l.t x i = x i
    rw [mul_assoc, e]; ring
  · show ((l.inverse y).1 i + l.t (l.inverse y).1 i) * Real.exp (l.s (l.inverse y).1 i) = y i
    rw [si, ti]
    show (y i * Real.exp (-l.s y i) - l.t y i + l.t y i) * Real.exp (l.s y i) = y i
    rw [sub_add_cancel, mul_assoc, mul_comm (Real.exp _), e, mul_one]
  · show -sumFin (l.s (l.forward x).1) = -sumFin (l.s x)
    rw [sf]
  · show sumFin (l.s (l.inverse y).1) = - -sumFin (l.s y)
    rw [si, neg_neg]

/-! ### C43 -/

variable {K : ℕ}

/-- One layer of the spline flow, forward. -/
def SplineLayer.fwd (tiny : ℝ) (c : SplineCfg) (l : SplineLayer d K) (x : Pos ℝ d) : Pos ℝ d × ℝ :=
  (((l.spline tiny c).forward (l.affine.forward x).1).1, (l.affine.forward x).2 + ((l.spline tiny c).forward (l.affine.forward x).1).2)

/-- One layer of the spline flow, `inverse`. -/
def SplineLayer.bwd (tiny : ℝ) (c : SplineCfg) (l : SplineLayer d K) (x : Pos ℝ d) : Pos ℝ d × ℝ :=
  (((l.spline tiny c).inverse (l.affine.inverse x).1).1, (l.affine.inverse x).2 + ((l.spline tiny c).inverse (l.affine.inverse x).1).2)

theorem SplineFlow.forward_eq (tiny : ℝ) (m : SplineFlow d K) (x : Pos ℝ d) : m.forward tiny x = seqMaps (m.layers.map fun l => l.fwd tiny m.cfg) x := by
  rw [SplineFlow.forward, scan_seqMaps (fun l : SplineLayer d K => l.fwd tiny m.cfg) _ (fun s l => by simp [SplineLayer.fwd, add_assoc])]
  simp

theorem SplineFlow.inverse_eq (tiny : ℝ) (m : SplineFlow d K) (x : Pos ℝ d) : m.inverse tiny x = seqMaps (m.layers.reverse.map fun l => l.bwd tiny m.cfg) x := by
  rw [SplineFlow.inverse, scan_seqMaps (fun l : SplineLayer d K => l.bwd tiny m.cfg) _ (fun s l => by simp [SplineLayer.bwd, add_assoc])]
  simp

/-- A spline flow whose settings give valid knots: at least one bin, positive minima, a range wide enough, 0/1 masks. -/
structure SplineFlow.Wellformed (m : SplineFlow d K) : Prop where
  bins : 0 < K
  binSize : 0 < m.cfg.minBinSize
  slope : 0 ≤ m.cfg.minKnotSlope
  slope_lt : m.cfg.minKnotSlope < 1
  range : K * m.cfg.minBinSize ≤ m.cfg.rangeMax - m.cfg.rangeMin
  masks : ∀ l ∈ m.layers, ZeroOne l.mask

/-- The floating-point guard of the quadratic formula is inactive for every layer, condition and feature. -/
def SplineFlow.GuardOff (tiny : ℝ) (m : SplineFlow d K) : Prop :=
  ∀ l ∈ m.layers, ∀ cond f, ClipInactive tiny (condKnots m.cfg (l.mlp.call Real.tanh) cond f).xPos (condKnots m.cfg (l.mlp.call Real.tanh) cond f).yPos
    (condKnots m.cfg (l.mlp.call Real.tanh) cond f).slopes

/-- The `ScalarAffine` part of every layer is the identity, as it is after construction. -/
def SplineFlow.AffineTrivial (m : SplineFlow d K) : Prop := ∀ l ∈ m.layers, l.scale = 0 ∧ l.shift = 0

theorem SplineFlow.Wellformed.valid {m : SplineFlow d K} (h : m.Wellformed) (row : Fin (K * 3 + 1) → ℝ) :
    ValidKnots (rowKnots m.cfg row).xPos (rowKnots m.cfg row).yPos (rowKnots m.cfg row).slopes :=
  C39_valid m.cfg row h.bins h.binSize h.slope h.range h.slope_lt

theorem affine_trivial {l : SplineLayer d K} (h : l.scale = 0 ∧ l.shift = 0) (x : Pos ℝ d) : l.affine.forward x = (x, 0) ∧ l.affine.inverse x = (x, 0) := by
  constructor
  · simp only [CouplingLayer.forward, SplineLayer.affine, scalarAffine, h.1, h.2, sumFin_eq]
    simp
  · simp only [CouplingLayer.inverse, SplineLayer.affine, scalarAffine, h.1, h.2, sumFin_eq]
    simp

/-- C43, the part that holds: while the `ScalarAffine` parts are trivial (as constructed), `inverse` inverts `forward` in both orders with opposite
log-determinants. -/
theorem C43_inverse_pair_partial (tiny : ℝ) (m : SplineFlow d K) (hw : m.Wellformed) (hg : m.GuardOff tiny) (ha : m.AffineTrivial) :
    InversePair (m.forward tiny) (m.inverse tiny) := by
  have := seqMaps_inverse (fun l : SplineLayer d K => l.fwd tiny m.cfg) (fun l => l.bwd tiny m.cfg) m.layers fun l hl => by
    have h := C37_inverse_pair (l.spline tiny m.cfg) (hw.masks l hl) (C37_rqSpline tiny m.cfg (l.mlp.call Real.tanh) (fun _ _ => hw.valid _) (hg l hl))
    have e1 : l.fwd tiny m.cfg = (l.spline tiny m.cfg).forward := by
      funext x; simp [SplineLayer.fwd, (affine_trivial (ha l hl) x).1]
    have e2 : l.bwd tiny m.cfg = (l.spline tiny m.cfg).inverse := by
      funext x; simp [SplineLayer.bwd, (affine_trivial (ha l hl) x).2]
    rw [e1, e2]; exact h
  rw [show m.forward tiny = _ from funext (m.forward_eq tiny), show m.inverse tiny = _ from funext (m.inverse_eq tiny)]
  exact this

theorem splineMask_zeroOne (i : ℕ) : ZeroOne (splineMask d i) := by
  intro j
  simp only [splineMask]
  rcases Nat.mod_two_eq_zero_or_one (j.1 + i) with h | h <;> simp [h]

/-- C43: the masks alternate: layer `i` passes through exactly the coordinates `j` with `j + i` odd. -/
theorem C43_masks (i : ℕ) (j : Fin d) : (splineMask d i j = 1 ↔ (j.1 + i) % 2 = 1) ∧ (splineMask d i j = 0 ↔ (j.1 + i) % 2 = 0) := by
  simp only [splineMask]
  rcases Nat.mod_two_eq_zero_or_one (j.1 + i) with h | h <;> simp [h]

/-- C43: every constructed flow with a wide enough range satisfies the structural hypotheses and has trivial affine parts. -/
theorem C43_constructed (dr : MLPDraws) (nLayers : ℕ) (hidden : List ℕ) (k : Key) (lo hi : ℝ) (base : Option (BaseDist d)) (mean var : Option (Pos ℝ d))
    (hK : 0 < K) (hr : K * (1 / 10000 : ℝ) ≤ hi - lo) :
    (SplineFlow.init dr d K nLayers hidden k lo hi base mean var).Wellformed ∧ (SplineFlow.init dr d K nLayers hidden k lo hi base mean var).AffineTrivial := by
  refine ⟨⟨hK, by norm_num [SplineFlow.init], by norm_num [SplineFlow.init], by norm_num [SplineFlow.init], hr, fun l hl => ?_⟩, fun l hl => ?_⟩
  · simp only [SplineFlow.init, List.mem_map, List.mem_range] at hl
    obtain ⟨i, _, rfl⟩ := hl
    exact splineMask_zeroOne i
  · simp only [SplineFlow.init, List.mem_map, List.mem_range] at hl
    obtain ⟨i, _, rfl⟩ := hl
    exact ⟨rfl, rfl⟩

/-- A constructed flow with 3 features, 2 layers, 8 bins and the default range meets the structural hypotheses. -/
example (dr : MLPDraws) (k : Key) : (SplineFlow.init dr 3 8 2 [16] k (-10) 10 none none none).Wellformed :=
  (C43_constructed dr 2 [16] k (-10) 10 none none none (by norm_num) (by norm_num)).1

end
end FlowMC
