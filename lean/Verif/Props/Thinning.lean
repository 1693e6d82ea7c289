import Verif.Props.SplitCalls
import Mathlib.Analysis.Convex.Jensen
/-
C120: in equilibrium, thinning never makes averages more accurate, and longer runs never less.
-/
open MeasureTheory ProbabilityTheory
open scoped ENNReal
set_option linter.unusedSectionVars false
namespace FlowMC
open Spec

section
variable {X N : Type} [MeasurableSpace X] [MeasurableSpace N] {ν : Measure N} {step : N → X → X} {Ω : Type} [MeasurableSpace Ω] {P : Measure Ω} [IsProbabilityMeasure P]

/-- In equilibrium, equally spaced points have the same joint distribution in all trajectories and everywhere. -/
theorem IsPath.pick_law [IsProbabilityMeasure ν] (hm : Measurable fun p : X × N => step p.2 p.1) {μ : Measure X} [SFinite μ] (hinv : stepLaw ν step μ = μ) {n n' : ℕ} {Z Z' : ℕ → Ω → X}
    (hZ : IsPath P ν step μ n Z) (hZ' : IsPath P ν step μ n' Z') (t m c c' : ℕ) (hn : ∀ j < m, j * t + c ≤ n) (hn' : ∀ j < m, j * t + c' ≤ n') :
    P.map (fun ω (j : Fin m) => Z (j * t + c) ω) = P.map (fun ω (j : Fin m) => Z' (j * t + c') ω) := by
  refine map_eq_of_boxes _ _ (measurable_pi_lambda _ fun j => hZ.meas _ (hn j j.2)) (measurable_pi_lambda _ fun j => hZ'.meas _ (hn' j j.2)) fun A hA => ?_
  rcases Nat.eq_zero_or_pos m with rfl | hm0
  · simp
  rw [hZ.box hm hinv t m c hm0 hn A hA, hZ'.box hm hinv t m c' hm0 hn' A hA]

/-- The average of `m` averages, each of `l` points spaced by `t`, is at least as accurate as one of them. -/
theorem IsPath.average_of_averages [IsProbabilityMeasure ν] (hm : Measurable fun p : X × N => step p.2 p.1) {μ : Measure X} [SFinite μ] (hinv : stepLaw ν step μ = μ) {n n' : ℕ} {Z Z' : ℕ → Ω → X}
    (hZ : IsPath P ν step μ n Z) (hZ' : IsPath P ν step μ n' Z') (t l m : ℕ) (β : Fin m → ℕ) (c : ℕ) (hn : ∀ p, ∀ j < l, j * t + β p ≤ n) (hn' : ∀ j < l, j * t + c ≤ n') (hm0 : 0 < m)
    (g : X → ℝ) (hg : Measurable g) (φ : ℝ → ℝ) (hφ : ConvexOn ℝ Set.univ φ) (hφm : Measurable φ) (hφ0 : ∀ x, 0 ≤ φ x) :
    ∫⁻ ω, ENNReal.ofReal (φ ((∑ p : Fin m, (∑ j : Fin l, g (Z (j * t + β p) ω)) / l) / m)) ∂P ≤ ∫⁻ ω, ENNReal.ofReal (φ ((∑ j : Fin l, g (Z' (j * t + c) ω)) / l)) ∂P := by
  have hF : Measurable fun z : Fin l → X => ENNReal.ofReal (φ ((∑ j, g (z j)) / l)) :=
    (hφm.comp ((Finset.measurable_fun_sum _ fun j _ => hg.comp (measurable_pi_apply j)).div_const _)).ennreal_ofReal
  have hpt : ∀ p, Measurable fun ω (j : Fin l) => Z (j * t + β p) ω := fun p => measurable_pi_lambda _ fun j => hZ.meas _ (hn p j j.2)
  have hp : ∀ p, ∫⁻ ω, ENNReal.ofReal (φ ((∑ j : Fin l, g (Z (j * t + β p) ω)) / l)) ∂P = ∫⁻ ω, ENNReal.ofReal (φ ((∑ j : Fin l, g (Z' (j * t + c) ω)) / l)) ∂P := by
    intro p
    have e := congrArg (fun κ => ∫⁻ z, ENNReal.ofReal (φ ((∑ j, g (z j)) / l)) ∂κ) (hZ.pick_law hm hinv hZ' t l (β p) c (hn p) hn')
    beta_reduce at e
    rwa [lintegral_map hF (hpt p), lintegral_map hF (measurable_pi_lambda _ fun j => hZ'.meas _ (hn' j j.2))] at e
  have hm' : (0 : ℝ) < m := by exact_mod_cast hm0
  have hjensen : ∀ ω, ENNReal.ofReal (φ ((∑ p : Fin m, (∑ j : Fin l, g (Z (j * t + β p) ω)) / l) / m)) ≤
      ENNReal.ofReal (m : ℝ)⁻¹ * ∑ p : Fin m, ENNReal.ofReal (φ ((∑ j : Fin l, g (Z (j * t + β p) ω)) / l)) := by
    intro ω
    have := hφ.map_sum_le (t := Finset.univ) (w := fun _ : Fin m => (m : ℝ)⁻¹) (p := fun p => (∑ j : Fin l, g (Z (j * t + β p) ω)) / l) (fun _ _ => by positivity)
      (by simp [hm'.ne']) (fun _ _ => Set.mem_univ _)
    simp only [smul_eq_mul, ← Finset.mul_sum] at this
    rw [← ENNReal.ofReal_sum_of_nonneg fun p _ => hφ0 _, ← ENNReal.ofReal_mul (by positivity), div_eq_inv_mul]
    exact ENNReal.ofReal_le_ofReal this
  calc _ ≤ ∫⁻ ω, ENNReal.ofReal (m : ℝ)⁻¹ * ∑ p : Fin m, ENNReal.ofReal (φ ((∑ j : Fin l, g (Z (j * t + β p) ω)) / l)) ∂P := lintegral_mono hjensen
    _ = ENNReal.ofReal (m : ℝ)⁻¹ * ∑ p : Fin m, ∫⁻ ω, ENNReal.ofReal (φ ((∑ j : Fin l, g (Z (j * t + β p) ω)) / l)) ∂P := by
      have hmeas : ∀ p, Measurable fun ω => ENNReal.ofReal (φ ((∑ j : Fin l, g (Z (j * t + β p) ω)) / l)) := fun p => hF.comp (hpt p)
      rw [lintegral_const_mul _ (Finset.measurable_fun_sum _ fun p _ => hmeas p), lintegral_finset_sum _ fun p _ => hmeas p]
    _ = _ := by
      simp only [hp, Finset.sum_const, Finset.card_univ, Fintype.card_fin, nsmul_eq_mul]
      rw [← mul_assoc, ENNReal.ofReal_inv_of_pos hm', ENNReal.ofReal_natCast, ENNReal.inv_mul_cancel (by exact_mod_cast hm0.ne') (by simp), one_mul]
end

/-- A sum over `m * l` terms, by residues. -/
theorem sum_residues (m l : ℕ) (F : ℕ → ℝ) : ∑ r ∈ Finset.range (l * m), F r = ∑ p : Fin m, ∑ j : Fin l, F (j * m + p) := by
  rw [Finset.sum_comm, Finset.sum_range, ← Fintype.sum_prod_type', ← (finProdFinEquiv : Fin l × Fin m ≃ Fin (l * m)).sum_comp]
  refine Finset.sum_congr rfl fun x _ => ?_
  rw [finProdFinEquiv_apply_val, add_comm, mul_comm]

/-- A sum over `m * l` terms, by blocks. -/
theorem sum_blocks (m l : ℕ) (F : ℕ → ℝ) : ∑ r ∈ Finset.range (m * l), F r = ∑ p : Fin m, ∑ j : Fin l, F (p * l + j) := by
  rw [Finset.sum_range, ← Fintype.sum_prod_type', ← (finProdFinEquiv : Fin m × Fin l ≃ Fin (m * l)).sum_comp]
  refine Finset.sum_congr rfl fun x _ => ?_
  rw [finProdFinEquiv_apply_val, add_comm, mul_comm]

variable {Ω D M O : Type} {d : ℕ}
variable {past : MeasurableSpace Ω} {sig : Key → MeasurableSpace Ω} [mΩ : MeasurableSpace Ω] {P : Measure Ω} [IsProbabilityMeasure P] {env : Ω → Env ℝ D d M O} [BufNum ℝ]

theorem ceilDiv_dvd {n t : ℕ} (ht : 0 < t) (hd : t ∣ n) : ceilDiv' n t = n / t := by
  obtain ⟨c, rfl⟩ := hd
  unfold ceilDiv'
  rw [Nat.mul_div_cancel_left _ ht, show t * c + t - 1 = (t - 1) + t * c by omega, Nat.add_mul_div_left _ _ ht, Nat.div_eq_of_lt (by omega)]
  omega

section
variable (k : Key) (h : IdealOn (Desc k) past sig P env) (r0 : String → Option (Resource ℝ D d M O)) (data : Data D) (μ : Measure (Pos ℝ d)) [IsProbabilityMeasure μ]
    (strats : String → Option (Strategy ℝ D d M O)) (names : List String) (hs : ∀ name ∈ names, ∀ s, strats name = some s → ExactStrategy (Desc k) P sig env r0 data μ s)
    (w w' w1 w2 : Ω → World ℝ D d M O) (hkey : ∀ ω, (w ω).key = k) (hres : ∀ ω, KeepsSamplers r0 (w ω).heap) (i : ℕ) (X : Ω → Pos ℝ d) (hX : ∀ ω, (w ω).xs[i]? = some (X ω))
    (hXm : Measurable[past] X) (hXl : P.map X = μ) (hr : ∀ ω, Completes (env ω) strats data names (w ω) (w' ω))
    (s : TakeSteps) (hstep : ExactStepper (Desc k) P sig env r0 data μ s) (hn : 0 < s.nSteps) (hdvd : s.thinning ∣ s.nSteps)
    (hcall : ∀ ω, s.run (env ω) (w' ω).key (w' ω).xs data (w' ω).heap = (.ok ((w1 ω).key, (w1 ω).xs), (w1 ω).heap)) (n cap cur : ℕ) (hw : ∀ ω, (w' ω).xs.length = n)
    (Pn L A : String) (bP bL bA : Ω → Buffer ℝ) (hpt : ∀ ω, PointsAt (w' ω).heap s Pn L A) (hrec : ∀ ω, Recorders (w' ω).heap n cap Pn L A (bP ω) (bL ω) (bA ω))
    (hcur : ∀ ω, (w' ω).heap.pos s.ident = cur)
    (g : Pos ℝ d → ℝ) (hg : Measurable g) (φ : ℝ → ℝ) (hφ : ConvexOn ℝ Set.univ φ) (hφm : Measurable φ) (hφ0 : ∀ x, 0 ≤ φ x)
include h hs hkey hres hX hXm hXl hr hstep hn hdvd hcall hw hpt hrec hcur hg hφ hφm hφ0

/-- **C120 (thinning).** In equilibrium, a call of an exact stepper with `n` steps is made with thinning `t` (a divisor of `n`), or without thinning.  For any measurable function `g` and any convex loss `φ` (such as the
squared or absolute distance from the true mean), the expected loss of the average of `g` over the recorded rows is without thinning at most what it is with thinning. -/
theorem C120_thinning (hfit : cur + s.nSteps ≤ cap) (hcall2 : ∀ ω, ({ s with thinning := 1 } : TakeSteps).run (env ω) (w' ω).key (w' ω).xs data (w' ω).heap = (.ok ((w2 ω).key, (w2 ω).xs), (w2 ω).heap)) :
    ∃ b1 b2 : Ω → Buffer ℝ, (∀ ω, (w1 ω).heap.res Pn = some (.buffer (b1 ω))) ∧ (∀ ω, (w2 ω).heap.res Pn = some (.buffer (b2 ω))) ∧
      ∫⁻ ω, ENNReal.ofReal (φ ((∑ r ∈ Finset.range s.nSteps, g (fun a => (b2 ω).data.get [i, cur + r, a])) / s.nSteps)) ∂P ≤
        ∫⁻ ω, ENNReal.ofReal (φ ((∑ j ∈ Finset.range (s.nSteps / s.thinning), g (fun a => (b1 ω).data.get [i, cur + j, a])) / (s.nSteps / s.thinning : ℕ))) ∂P := by
  have ht : 0 < s.thinning := Nat.pos_of_dvd_of_pos hdvd hn
  set C := s.nSteps / s.thinning with hC
  have hCt : C * s.thinning = s.nSteps := Nat.div_mul_cancel hdvd
  have hceil : ceilDiv' s.nSteps s.thinning = C := ceilDiv_dvd ht hdvd
  have hCn : C ≤ s.nSteps := Nat.div_le_self _ _
  obtain ⟨k', S', hc⟩ := exact_chain k h r0 data μ strats names hs w w' hkey hres i X hX hXm hXl hr
  obtain ⟨ν, hν, step, hm, hinv, -, hrows⟩ := exactStepper_paths h hstep
  obtain ⟨-, Z1, hZ1, hcell1⟩ := stepper_path_rows h hc s hm (hrows s.nSteps s.thinning) w1 hcall n cap cur hn hw Pn L A bP bL bA hpt hrec hcur (by rw [hceil]; omega)
  obtain ⟨-, Z2, hZ2, hcell2⟩ := stepper_path_rows h hc { s with thinning := 1 } hm (hrows s.nSteps 1) w2 hcall2 n cap cur hn hw Pn L A bP bL bA hpt hrec hcur
    (by rw [ceilDiv_dvd Nat.one_pos (one_dvd _), Nat.div_one]; exact hfit)
  rw [hceil] at hcell1
  simp only [ceilDiv_dvd Nat.one_pos (one_dvd s.nSteps), Nat.div_one, Nat.mul_one] at hcell2
  choose b1 hb1 hcell1 using hcell1
  choose b2 hb2 hcell2 using hcell2
  refine ⟨b1, b2, hb1, hb2, ?_⟩
  have hle : ∀ j < C, j * s.thinning + s.thinning ≤ s.nSteps := fun j hj => by
    have : (j + 1) * s.thinning ≤ C * s.thinning := Nat.mul_le_mul_right _ hj
    rw [Nat.add_mul] at this
    omega
  have key := hZ2.average_of_averages hm hinv hZ1 s.thinning C s.thinning (fun p => p + 1) 1 (fun p j hj => by have h1 := hle j hj; have h2 := p.2; show j * s.thinning + (p.1 + 1) ≤ s.nSteps; omega) (fun j hj => by have := hle j hj; omega) ht g hg φ hφ hφm hφ0
  refine (lintegral_congr fun ω => ?_).trans_le (key.trans_eq (lintegral_congr fun ω => ?_))
  · have e : ∑ r ∈ Finset.range s.nSteps, g (fun a => (b2 ω).data.get [i, cur + r, a]) = ∑ r ∈ Finset.range (C * s.thinning), g (Z2 (r + 1) ω) := by
      rw [hCt]
      exact Finset.sum_congr rfl fun r hr => congrArg g (funext fun a => hcell2 ω r (Finset.mem_range.1 hr) a)
    rw [e, sum_residues s.thinning C fun r => g (Z2 (r + 1) ω)]
    have e2 : (s.nSteps : ℝ) = (C : ℝ) * s.thinning := by rw [← hCt]; push_cast; rfl
    rw [e2, ← div_div, Finset.sum_div]
    rfl
  · rw [Finset.sum_range]
    exact congrArg (fun x => ENNReal.ofReal (φ (x / C))) (Finset.sum_congr rfl fun j _ => congrArg g (funext fun a => (hcell1 ω j j.2 a).symm))

/-- **C120 (longer calls).** In equilibrium, multiplying the number of steps of a call by `m` does not increase the expected loss of the averages over the recorded rows. -/
theorem C120_longer (m : ℕ) (hm0 : 0 < m) (hfit : cur + m * (s.nSteps / s.thinning) ≤ cap)
    (hcall2 : ∀ ω, ({ s with nSteps := m * s.nSteps } : TakeSteps).run (env ω) (w' ω).key (w' ω).xs data (w' ω).heap = (.ok ((w2 ω).key, (w2 ω).xs), (w2 ω).heap)) :
    ∃ b1 b2 : Ω → Buffer ℝ, (∀ ω, (w1 ω).heap.res Pn = some (.buffer (b1 ω))) ∧ (∀ ω, (w2 ω).heap.res Pn = some (.buffer (b2 ω))) ∧
      ∫⁻ ω, ENNReal.ofReal (φ ((∑ r ∈ Finset.range (m * (s.nSteps / s.thinning)), g (fun a => (b2 ω).data.get [i, cur + r, a])) / (m * (s.nSteps / s.thinning) : ℕ))) ∂P ≤
        ∫⁻ ω, ENNReal.ofReal (φ ((∑ j ∈ Finset.range (s.nSteps / s.thinning), g (fun a => (b1 ω).data.get [i, cur + j, a])) / (s.nSteps / s.thinning : ℕ))) ∂P := by
  have ht : 0 < s.thinning := Nat.pos_of_dvd_of_pos hdvd hn
  set C := s.nSteps / s.thinning with hC
  have hCt : C * s.thinning = s.nSteps := Nat.div_mul_cancel hdvd
  have hceil : ceilDiv' s.nSteps s.thinning = C := ceilDiv_dvd ht hdvd
  have hceil2 : ceilDiv' (m * s.nSteps) s.thinning = m * C := by rw [ceilDiv_dvd ht (Dvd.dvd.mul_left hdvd m), Nat.mul_div_assoc m hdvd]
  have hCm : C ≤ m * C := Nat.le_mul_of_pos_left _ hm0
  obtain ⟨k', S', hc⟩ := exact_chain k h r0 data μ strats names hs w w' hkey hres i X hX hXm hXl hr
  obtain ⟨ν, hν, step, hm, hinv, -, hrows⟩ := exactStepper_paths h hstep
  obtain ⟨-, Z1, hZ1, hcell1⟩ := stepper_path_rows h hc s hm (hrows s.nSteps s.thinning) w1 hcall n cap cur hn hw Pn L A bP bL bA hpt hrec hcur (by rw [hceil]; omega)
  obtain ⟨-, Z2, hZ2, hcell2⟩ := stepper_path_rows h hc { s with nSteps := m * s.nSteps } hm (hrows (m * s.nSteps) s.thinning) w2 hcall2 n cap cur (Nat.mul_pos hm0 hn) hw Pn L A bP bL bA hpt hrec hcur
    (by rw [hceil2]; exact hfit)
  rw [hceil] at hcell1
  simp only [hceil2] at hcell2
  choose b1 hb1 hcell1 using hcell1
  choose b2 hb2 hcell2 using hcell2
  refine ⟨b1, b2, hb1, hb2, ?_⟩
  have hle : ∀ j < C, j * s.thinning + s.thinning ≤ s.nSteps := fun j hj => by
    have : (j + 1) * s.thinning ≤ C * s.thinning := Nat.mul_le_mul_right _ hj
    rw [Nat.add_mul] at this
    omega
  have key := hZ2.average_of_averages hm hinv hZ1 s.thinning C m (fun p => p * s.nSteps + 1) 1 (fun p j hj => by
    have h1 := hle j hj
    have h2 : (p.1 + 1) * s.nSteps ≤ m * s.nSteps := Nat.mul_le_mul_right _ p.2
    rw [Nat.add_mul] at h2
    show j * s.thinning + (p.1 * s.nSteps + 1) ≤ m * s.nSteps
    omega) (fun j hj => by have := hle j hj; omega) hm0 g hg φ hφ hφm hφ0
  refine (lintegral_congr fun ω => ?_).trans_le (key.trans_eq (lintegral_congr fun ω => ?_))
  · have e : ∑ r ∈ Finset.range (m * C), g (fun a => (b2 ω).data.get [i, cur + r, a]) = ∑ r ∈ Finset.range (m * C), g (Z2 (r * s.thinning + 1) ω) :=
      Finset.sum_congr rfl fun r hr => congrArg g (funext fun a => hcell2 ω r (Finset.mem_range.1 hr) a)
    rw [e, sum_blocks m C fun r => g (Z2 (r * s.thinning + 1) ω), Nat.cast_mul, mul_comm (m : ℝ), ← div_div, Finset.sum_div]
    refine congrArg (fun x => ENNReal.ofReal (φ (x / m))) (Finset.sum_congr rfl fun p _ => congrArg (· / (C : ℝ)) (Finset.sum_congr rfl fun j _ => ?_))
    rw [Nat.add_mul, Nat.mul_assoc, hCt, add_comm (p.1 * s.nSteps), add_assoc]
  · rw [Finset.sum_range]
    exact congrArg (fun x => ENNReal.ofReal (φ (x / C))) (Finset.sum_congr rfl fun j _ => congrArg g (funext fun a => (hcell1 ω j j.2 a).symm))

end

end FlowMC
