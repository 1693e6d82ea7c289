import Verif.Props.Improve
/-
C115: the optimizer's memory of earlier data can make a training call harmful; concrete cases.
-/
set_option linter.unusedSectionVars false
namespace FlowMC
open Spec
noncomputable section
open Classical

/-- A model with one parameter; the loss is the parameter times the sum of the data. -/
def lineLoss (m : Fin 1 → ℝ) (x : List (Pos ℝ 1)) : ℝ := m 0 * (x.map (· 0)).sum
def lineGrad (_ : Fin 1 → ℝ) (x : List (Pos ℝ 1)) : Fin 1 → ℝ := fun _ => (x.map (· 0)).sum
def lineOps : FlowOps ℝ 1 (Fin 1 → ℝ) (AdamState (Fin 1)) := { sample := fun _ _ n => List.replicate n fun _ => 0, logProb := fun _ _ => 0, trainStep := fun m o _ => (0, m, o), setStats := fun m _ => m }

theorem line_parameters : Parameters (M := Fin 1 → ℝ) id (fun _ p => p) := ⟨fun _ _ => rfl, fun _ => rfl, fun _ _ _ => rfl⟩
theorem line_orderFree : OrderFree lineLoss lineGrad := fun m x y h => by
  have : (x.map (· 0)).sum = (y.map (· 0)).sum := (h.map _).sum_eq
  exact ⟨by rw [lineLoss, lineLoss, this], by funext i; exact this⟩
theorem line_smooth (m : Fin 1 → ℝ) (x : List (Pos ℝ 1)) : SmoothLoss id (fun _ p => p) lineLoss lineGrad m x where
  deriv := by
    have h0 : HasFDerivAt (fun y : Fin 1 → ℝ => y 0) (ContinuousLinearMap.proj 0 : (Fin 1 → ℝ) →L[ℝ] ℝ) (id m) := hasFDerivAt_apply 0 _
    refine (h0.mul_const (x.map (· 0)).sum).congr_fderiv ?_
    ext v
    simp [lineGrad]
  cont := continuousAt_const

/-- Another loss on the same model: the squared distance of the parameter to the data. -/
def quadLoss (m : Fin 1 → ℝ) (x : List (Pos ℝ 1)) : ℝ := (x.map fun y => (m 0 - y 0) ^ 2).sum
def quadGrad (m : Fin 1 → ℝ) (x : List (Pos ℝ 1)) : Fin 1 → ℝ := fun _ => (x.map fun y => 2 * (m 0 - y 0)).sum

theorem clip_one (c : ℝ) (h : |c| < 1) (i : Fin 1) : clipByGlobalNorm (fun _ : Fin 1 => c) i = c := by
  simp [clipByGlobalNorm, Real.sqrt_sq_eq_abs, h]

/-- **C115.** The optimizer must be fresh: it remembers the direction of earlier training data.  Here a first training call on `[1/2]` is followed by one on `[-1/4]`; a fresh optimizer would
lower the loss on `[-1/4]`, but the second call returns a model whose loss on its own training data is larger than before the call, for every learning rate up to one. -/
theorem C115_memory (rng : Rng ℝ) (k k' : Key) (lr : ℝ) (h0 : 0 < lr) (h1 : lr ≤ 1) : ∃ r r',
    train rng (trainedBy lineOps id (fun _ p => p) lineLoss lineGrad lr (9 / 10)) (10 ^ 9) k (fun _ => 0) .init [fun _ => 1 / 2] 1 2 = .ok r ∧
    train rng (trainedBy lineOps id (fun _ p => p) lineLoss lineGrad lr (9 / 10)) (10 ^ 9) k' r.model r.state [fun _ => -1 / 4] 1 2 = .ok r' ∧
    0 < descentRate (lineGrad r.model [fun _ => -1 / 4]) r.model ∧ lineLoss r.model [fun _ => -1 / 4] < lineLoss r'.model [fun _ => -1 / 4] := by
  set ops := trainedBy lineOps id (fun _ p => p) lineLoss lineGrad lr (9 / 10) with hops
  have one : ∀ (k : Key) (m : Fin 1 → ℝ) (o : AdamState (Fin 1)) (c : ℝ), m 0 * c < 10 ^ 9 →
      ∃ r, train rng ops (10 ^ 9) k m o [fun _ => c] 1 2 = .ok r ∧ r.model = (adamwStep lr (9 / 10) (fun _ => c) (o, m)).2 ∧ r.state = (adamwStep lr (9 / 10) (fun _ => c) (o, m)).1 := by
    intro k m o c hc
    have e : ∀ k, trainEpoch rng ops (10 ^ 9) k m o [fun _ => c] 2 = (m 0 * c, (adamwStep lr (9 / 10) (fun _ => c) (o, m)).2, (adamwStep lr (9 / 10) (fun _ => c) (o, m)).1) := fun k => by
      have hg : lineGrad m [fun _ => c] = fun _ => c := by funext i; simp [lineGrad]
      simp [trainEpoch, hops, trainedBy, gradStep, lineLoss, hg]
    have hs : ops.setStats m [fun _ => c] = m := rfl
    refine ⟨_, by simp only [train]; rw [if_neg (by omega)], ?_, ?_⟩ <;>
    · simp only [trainLoop, trainLoopBody, trainInit, hs, e]
      simp [hc]
  obtain ⟨r, hr, hm, ho⟩ := one k (fun _ => 0) .init (1 / 2) (by norm_num)
  have hst : (r.state.mu 0 = 1 / 20 ∧ r.state.nu 0 = 1 / 4000 ∧ r.state.count = 1) := by
    rw [ho]
    simp only [adamwStep, AdamState.init, clip_one (1 / 2) (by norm_num [abs_of_pos])]
    norm_num
  have hw : r.model 0 = -(lr * (1 / 2 / (1 / 2 + 1 / 10 ^ 8))) := by
    rw [hm]
    simp only [adamwStep, AdamState.init, clip_one (1 / 2) (by norm_num [abs_of_pos])]
    have : Real.sqrt ((999 / 1000 * 0 + (1 - 999 / 1000) * (1 / 2) ^ 2) / (1 - (999 / 1000) ^ (0 + 1))) = 1 / 2 := by
      rw [show ((999 / 1000 * 0 + (1 - 999 / 1000) * (1 / 2) ^ 2) / (1 - (999 / 1000) ^ (0 + 1)) : ℝ) = (1 / 2) ^ 2 by norm_num]
      exact Real.sqrt_sq (by norm_num)
    rw [this]
    norm_num
  have hwb : -1 ≤ r.model 0 ∧ r.model 0 ≤ 0 := by
    rw [hw]
    constructor
    · norm_num
      linarith
    · norm_num
      exact h0.le
  obtain ⟨r', hr', hm', -⟩ := one k' r.model r.state (-1 / 4) (by linarith [hwb.1, hwb.2])
  refine ⟨r, r', hr, hr', ?_, ?_⟩
  · refine C115_when _ _ ⟨0, by simp [lineGrad]⟩ fun i _ => ?_
    have e : shortened (lineGrad r.model [fun _ => -1 / 4]) i = -1 / 4 := by
      rw [← clip_shortened, show lineGrad r.model [fun _ => -1 / 4] = fun _ => -1 / 4 by funext i; simp [lineGrad]]
      exact clip_one _ (by norm_num [abs_of_neg]) i
    rw [e, Subsingleton.elim i 0, abs_of_nonpos hwb.2]
    norm_num [abs_of_neg]
    linarith [hwb.1]
  · have hlt : r'.model 0 < r.model 0 := by
      rw [hm']
      simp only [adamwStep, clip_one (-1 / 4) (by norm_num [abs_of_neg]), hst.1, hst.2.1, hst.2.2]
      set q := Real.sqrt ((999 / 1000 * (1 / 4000) + (1 - 999 / 1000) * (-1 / 4) ^ 2) / (1 - (999 / 1000) ^ (1 + 1))) with hq
      have q0 : 0 ≤ q := Real.sqrt_nonneg _
      have q1 : q ≤ 1 := Real.sqrt_le_one.2 (by norm_num)
      have hdir : 1 / 100 ≤ (9 / 10 * (1 / 20) + (1 - 9 / 10) * (-1 / 4)) / (1 - (9 / 10) ^ (1 + 1)) / (q + 1 / 10 ^ 8) := by
        rw [le_div_iff₀ (by positivity)]
        norm_num
        linarith
      have : 0 < lr * ((9 / 10 * (1 / 20) + (1 - 9 / 10) * (-1 / 4)) / (1 - (9 / 10) ^ (1 + 1)) / (q + 1 / 10 ^ 8) + 1 / 10000 * r.model 0) := mul_pos h0 (by linarith [hwb.1])
      linarith
    simp only [lineLoss, List.map_cons, List.map_nil, List.sum_cons, List.sum_nil]
    linarith

/-- Non-vacuity of `C115_improves` and `C115_rate`: one parameter, squared distance to the data `[1, 3]`, three epochs with batches of ten. -/
example (rng : Rng ℝ) (hr : rng.Lawful) : ∃ lr₀ > 0, ∀ lr, 0 < lr → lr < lr₀ → ∃ r,
    train rng (trainedBy lineOps id (fun _ p => p) quadLoss quadGrad lr (9 / 10)) (10 ^ 9) (.root 0) (fun _ => 0) .init
      [fun _ => 1, fun _ => 3] 3 10 = .ok r ∧ r.losses.length = 3 ∧ r.losses[0]? = some 10 ∧ (r.model 0 - 1) ^ 2 + (r.model 0 - 3) ^ 2 < 10 := by
  have hord : OrderFree quadLoss quadGrad := fun m x y h =>
    ⟨(h.map _).sum_eq, by funext i; exact (h.map _).sum_eq⟩
  have hs : SmoothLoss id (fun _ p => p) quadLoss quadGrad (lineOps.setStats (fun _ => 0) [fun _ => 1, fun _ => 3])
      [fun _ => (1 : ℝ), fun _ => 3] := by
    constructor
    · have h0 : HasFDerivAt (fun y : Fin 1 → ℝ => y 0) (ContinuousLinearMap.proj 0 : (Fin 1 → ℝ) →L[ℝ] ℝ) (id (lineOps.setStats (fun _ => 0) [fun _ => 1, fun _ => 3])) := hasFDerivAt_apply 0 _
      have h := ((h0.sub_const 1).pow 2).add ((h0.sub_const 3).pow 2)
      refine (h.congr_fderiv ?_).congr_of_eventuallyEq (Filter.Eventually.of_forall fun y => by simp [quadLoss])
      ext v
      simp [lineOps, quadGrad]
      ring
    · refine Continuous.continuousAt ?_
      refine continuous_pi fun i => ?_
      simp only [quadGrad, List.map_cons, List.map_nil, List.sum_cons, List.sum_nil]
      fun_prop
  have hrate : 0 < descentRate (quadGrad (lineOps.setStats (fun _ => 0) [fun _ => 1, fun _ => 3]) [fun _ => 1, fun _ => 3]) (id (lineOps.setStats (fun _ => 0) [fun _ => 1, fun _ => 3])) := by
    have hg : quadGrad (lineOps.setStats (fun _ => 0) [fun _ => 1, fun _ => 3]) [fun _ => 1, fun _ => 3] = fun _ => -8 := by funext i; simp [quadGrad, lineOps]; norm_num
    rw [hg]
    refine C115_when _ _ ⟨0, by norm_num⟩ fun i _ => ?_
    have : shortened (fun (_ : Fin 1) => (-8 : ℝ)) i = -1 := by
      simp only [shortened, Finset.univ_unique, Finset.sum_const, Finset.card_singleton, one_smul]
      rw [show ((-8 : ℝ)) ^ 2 = 8 ^ 2 by norm_num, Real.sqrt_sq (by norm_num)]
      norm_num
    rw [this]
    norm_num [lineOps]
  obtain ⟨lr₀, h0, hh⟩ := C115_improves line_parameters hord rng hr lineOps (9 / 10) (by norm_num) (by norm_num) (10 ^ 9) (.root 0) (fun _ => 0) [fun _ => 1, fun _ => 3] (by simp) 3 (by norm_num) 10 (by simp) hs
    (by simp [lineOps, quadLoss]; norm_num) hrate
  refine ⟨lr₀, h0, fun lr g0 g1 => ?_⟩
  obtain ⟨r, h1, h2, h3, -, h5⟩ := hh lr g0 g1
  have h3' : r.losses[0]? = some 10 := by rw [h3]; simp [lineOps, quadLoss]; norm_num
  refine ⟨r, h1, h2, h3', ?_⟩
  have := h5 10 (List.mem_of_getElem? h3')
  simpa [quadLoss] using this

/-- Non-vacuity of `C115_decay`: a parameter of size 20000 whose loss is minus the parameter; weight decay pulls it down. -/
example (rng : Rng ℝ) (hr : rng.Lawful) : ∃ lr₀ > 0, ∀ lr, 0 < lr → lr < lr₀ → ∃ r,
    train rng (trainedBy lineOps id (fun _ p => p) lineLoss lineGrad lr (9 / 10)) (10 ^ 9) (.root 0) (fun _ => 20000) .init [fun _ => -1 / 2] 4 1 = .ok r ∧ -10000 < lineLoss r.model [fun _ => -1 / 2] := by
  have hg : lineGrad (lineOps.setStats (fun _ => 20000) [fun _ => -1 / 2]) [fun _ => -1 / 2] = fun _ => -1 / 2 := by funext i; simp [lineGrad]
  have hrate : descentRate (lineGrad (lineOps.setStats (fun _ => 20000) [fun _ => -1 / 2]) [fun _ => -1 / 2]) (id (lineOps.setStats (fun _ => 20000) [fun _ => -1 / 2])) < 0 := by
    rw [hg]
    simp only [descentRate, downward, ← clip_shortened, clip_one (-1 / 2) (by norm_num [abs_of_neg]), Finset.univ_unique, Finset.sum_singleton, id, lineOps]
    norm_num [abs_of_neg]
  obtain ⟨lr₀, h0, hh⟩ := C115_decay line_parameters line_orderFree rng hr lineOps (9 / 10) (by norm_num) (by norm_num) (10 ^ 9) (.root 0) (fun _ => 20000) [fun _ => -1 / 2] (by simp) 4 (by norm_num) 1 (by simp)
    (line_smooth _ _) (by simp [lineLoss, lineOps]; norm_num) hrate
  refine ⟨lr₀, h0, fun lr g0 g1 => ?_⟩
  obtain ⟨r, h1, -, h3⟩ := hh lr g0 g1
  refine ⟨r, h1, ?_⟩
  have e : lineLoss (lineOps.setStats (fun _ => 20000) [fun _ => -1 / 2]) [fun _ => -1 / 2] = -10000 := by simp [lineLoss, lineOps]; norm_num
  rw [← e]
  exact h3

end
end FlowMC
