import Verif.Props.Metropolis
import Verif.Spec.Hamiltonian
import Mathlib.Probability.Distributions.Gaussian.Basic
/-
C24 (leapfrog), C25 (HMC invariance).
-/
open MeasureTheory ProbabilityTheory ENNReal
set_option linter.unusedSectionVars false
namespace FlowMC
open Spec

variable {D : Type} {d : ℕ}

/-! ### C24 -/

/-- The velocity the code derives from its kinetic energy. -/
noncomputable def hmcVelocity (metric : Mat ℝ d) : Pos ℝ d → Pos ℝ d := hmcKineticGrad metric

noncomputable def kick (ε : ℝ) (gU : Pos ℝ d → Pos ℝ d) (z : Pos ℝ d × Pos ℝ d) : Pos ℝ d × Pos ℝ d := (z.1, fun i => z.2 i - ε / 2 * gU z.1 i)

theorem body_first (ε : ℝ) (n : ℕ) (metric : Mat ℝ d) (gU : Pos ℝ d → Pos ℝ d) (z : Pos ℝ d × Pos ℝ d) :
    leapfrogBody ε n metric gU 0 z = kick ε gU z := by
  have h : ¬ (0 = n + 1) := by omega
  have hx : (fun i => z.1 i + ε * (leapfrogCoef (F := ℝ) n 0).1 * hmcKineticGrad metric z.2 i) = z.1 := by
    funext i; simp [leapfrogCoef, h]
  simp only [leapfrogBody, hx, kick]
  refine Prod.ext rfl ?_
  funext i
  simp [leapfrogCoef, h, two]
  norm_num
  left; ring

theorem body_middle (ε : ℝ) (n i : ℕ) (h1 : i ≠ 0) (h2 : i ≠ n + 1) (metric : Mat ℝ d) (gU : Pos ℝ d → Pos ℝ d) (z : Pos ℝ d × Pos ℝ d) :
    leapfrogBody ε n metric gU i (kick ε gU z) = kick ε gU (verlet ε (hmcVelocity metric) gU z) := by
  simp only [leapfrogBody, kick, verlet, leapfrogCoef, h1, h2, if_false, mul_one, hmcVelocity]
  refine Prod.ext rfl ?_
  funext j
  simp only
  ring

theorem body_last (ε : ℝ) (n : ℕ) (metric : Mat ℝ d) (gU : Pos ℝ d → Pos ℝ d) (z : Pos ℝ d × Pos ℝ d) :
    leapfrogBody ε n metric gU (n + 1) (kick ε gU z) = verlet ε (hmcVelocity metric) gU z := by
  simp only [leapfrogBody, kick, verlet, leapfrogCoef, if_true, mul_one, hmcVelocity]
  refine Prod.ext rfl ?_
  funext j
  simp only [two]
  norm_num
  left; ring

/-- **C24.** The integrator performs exactly `n_leapfrog + 1` velocity Verlet steps (not `n_leapfrog`), with the velocity `p_j · Σ_i metric[i, j]`. -/
theorem C24_verlet (ε : ℝ) (n : ℕ) (metric : Mat ℝ d) (gU : Pos ℝ d → Pos ℝ d) (z : Pos ℝ d × Pos ℝ d) :
    leapfrogStep ε n metric gU z = (verlet ε (fun p j => p j * ∑ i, metric i j) gU)^[n + 1] z := by
  have hv : (fun p j => p j * ∑ i, metric i j) = hmcVelocity metric := by
    funext p j; simp [hmcVelocity, hmcKineticGrad, sumFin_eq]
  rw [hv]
  have key : ∀ k ≤ n, (List.range (k + 1)).foldl (fun s i => leapfrogBody ε n metric gU i s) z = kick ε gU ((verlet ε (hmcVelocity metric) gU)^[k] z) := by
    intro k
    induction k with
    | zero => intro _; simp [body_first]
    | succ k ih =>
      intro hk
      rw [List.range_succ, List.foldl_append, ih (by omega)]
      simp only [List.foldl_cons, List.foldl_nil]
      rw [body_middle _ _ _ (by omega) (by omega), Function.iterate_succ_apply']
  rw [leapfrogStep, List.range_succ, List.foldl_append, key n le_rfl]
  simp only [List.foldl_cons, List.foldl_nil]
  rw [body_last, Function.iterate_succ_apply']

theorem verlet_reverse (ε : ℝ) (v gU : Pos ℝ d → Pos ℝ d) (hv : ∀ p, v (fun i => -p i) = fun i => -v p i) (z : Pos ℝ d × Pos ℝ d) :
    verlet ε v gU (momentumFlip (verlet ε v gU z)) = momentumFlip z := by
  have h1 : (fun i => -(verlet ε v gU z).2 i - ε / 2 * gU (verlet ε v gU z).1 i) = fun i => -(z.2 i - ε / 2 * gU z.1 i) := by
    funext i; simp only [verlet]; ring
  have h2 : (fun i => (verlet ε v gU z).1 i + ε * v (fun i => -(z.2 i - ε / 2 * gU z.1 i)) i) = z.1 := by
    funext i; rw [hv (fun i => z.2 i - ε / 2 * gU z.1 i)]; simp only [verlet]; ring
  show verlet ε v gU ((verlet ε v gU z).1, fun i => -(verlet ε v gU z).2 i) = _
  rw [verlet]
  simp only [h1, h2]
  unfold momentumFlip
  refine Prod.ext rfl ?_
  funext i
  have := congrFun h1 i
  simp only at this ⊢
  linarith

theorem flip_flip (z : Pos ℝ d × Pos ℝ d) : momentumFlip (momentumFlip z) = z := by
  refine Prod.ext rfl ?_; funext i; simp [momentumFlip]

/-- **C24.** Time reversal: integrate, flip the momentum, integrate again: this is the start with flipped momentum.  For every step size, number of steps,
metric and force. -/
theorem C24_reversible (ε : ℝ) (n : ℕ) (metric : Mat ℝ d) (gU : Pos ℝ d → Pos ℝ d) (z : Pos ℝ d × Pos ℝ d) :
    leapfrogStep ε n metric gU (momentumFlip (leapfrogStep ε n metric gU z)) = momentumFlip z := by
  rw [C24_verlet, C24_verlet]
  generalize n + 1 = m
  set V := verlet ε (fun p j => p j * ∑ i, metric i j) gU with hV
  have hr : ∀ z, V (momentumFlip (V z)) = momentumFlip z := verlet_reverse ε _ gU (by intro p; funext j; simp)
  induction m generalizing z with
  | zero => rfl
  | succ m ih =>
    rw [Function.iterate_succ_apply' V m z, Function.iterate_succ_apply V m]
    rw [hr, ih]

theorem kick_preserving (c : ℝ) (gU : Pos ℝ d → Pos ℝ d) (hg : Measurable gU) :
    MeasurePreserving (fun z : (Fin d → ℝ) × (Fin d → ℝ) => (z.1, fun i => z.2 i - c * gU z.1 i)) (volume.prod volume) (volume.prod volume) := by
  refine (MeasurePreserving.id (volume : Measure (Fin d → ℝ))).skew_product (μc := (volume : Measure (Fin d → ℝ))) (μd := volume)
    (g := fun x p i => p i - c * gU x i) ?_ (.of_forall fun x => ?_)
  · refine measurable_pi_lambda _ fun i => ?_
    have := (measurable_pi_apply i).comp (hg.comp (measurable_fst : Measurable (Prod.fst : (Fin d → ℝ) × (Fin d → ℝ) → _)))
    simp only [Function.comp_def] at this
    simp only [Function.uncurry]
    fun_prop
  · have : (fun (p : Fin d → ℝ) i => p i - c * gU x i) = fun p => p - fun i => c * gU x i := rfl
    show Measure.map (fun (p : Fin d → ℝ) i => p i - c * gU x i) volume = volume
    rw [this]; exact map_sub_right_eq_self _ _

theorem drift_preserving (c : ℝ) (v : Pos ℝ d → Pos ℝ d) (hv : Measurable v) :
    MeasurePreserving (fun z : (Fin d → ℝ) × (Fin d → ℝ) => ((fun i => z.1 i + c * v z.2 i : Fin d → ℝ), z.2)) (volume.prod volume) (volume.prod volume) := by
  have h := kick_preserving (-c) v hv
  have h2 := (Measure.measurePreserving_swap.comp h).comp (Measure.measurePreserving_swap (μ := (volume : Measure (Fin d → ℝ))) (ν := (volume : Measure (Fin d → ℝ))))
  convert h2 using 1
  funext z
  refine Prod.ext ?_ rfl
  funext i
  simp [Function.comp]

theorem verlet_preserving (ε : ℝ) (v gU : Pos ℝ d → Pos ℝ d) (hv : Measurable v) (hg : Measurable gU) :
    MeasurePreserving (verlet ε v gU) (volume.prod volume) (volume.prod volume) := by
  have h := ((kick_preserving (ε / 2) gU hg).comp (drift_preserving ε v hv)).comp (kick_preserving (ε / 2) gU hg)
  exact h

theorem velocity_measurable (metric : Mat ℝ d) : Measurable (fun (p : Fin d → ℝ) j => p j * ∑ i, metric i j) :=
  measurable_pi_lambda _ fun j => by fun_prop

/-- **C24.** The integrator preserves phase-space volume. -/
theorem C24_volume (ε : ℝ) (n : ℕ) (metric : Mat ℝ d) (gU : Pos ℝ d → Pos ℝ d) (hg : Measurable gU) :
    MeasurePreserving (leapfrogStep ε n metric gU) (volume.prod volume) (volume.prod volume) := by
  have h : leapfrogStep ε n metric gU = (verlet ε (fun p j => p j * ∑ i, metric i j) gU)^[n + 1] := by funext z; exact C24_verlet ε n metric gU z
  rw [h]
  exact (verlet_preserving ε _ gU (velocity_measurable metric) hg).iterate _

theorem flip_preserving : MeasurePreserving (momentumFlip : (Fin d → ℝ) × (Fin d → ℝ) → _) (volume.prod volume) (volume.prod volume) := by
  refine (MeasurePreserving.id (volume : Measure (Fin d → ℝ))).skew_product (μc := (volume : Measure (Fin d → ℝ))) (μd := volume)
    (g := fun _ p i => -p i) ?_ (.of_forall fun x => ?_)
  · refine measurable_pi_lambda _ fun i => ?_
    simp only [Function.uncurry]; fun_prop
  · have : (fun (p : Fin d → ℝ) i => -p i) = fun p => -p := rfl
    show Measure.map (fun (p : Fin d → ℝ) i => -p i) volume = volume
    rw [this]; exact Measure.map_neg_eq_self _

/-! ### C25 -/

theorem cholesky_diag (M L : Mat ℝ d) (hM : IsPosDiag M) (hL : IsCholeskyInv M L) : ∀ i j, L i j = if i = j then 1 / Real.sqrt (M i i) else 0 := by
  have hinv : ∀ i j, M i i * ∑ l, L i l * L j l = if i = j then 1 else 0 := by
    intro i j
    rw [← hL.inv i j]
    exact (Finset.sum_eq_single (f := fun k => M i k * ∑ l, L k l * L j l) i (fun k _ hk => by rw [hM.off i k (Ne.symm hk), zero_mul]) (by simp)).symm
  have hoff : ∀ m : ℕ, ∀ j : Fin d, j.val ≤ m → ∀ i, i ≠ j → L i j = 0 := by
    intro m
    induction m with
    | zero =>
      intro j hj i hij
      rcases lt_trichotomy i j with h | h | h
      · exact hL.lower i j h
      · exact absurd h hij
      · have := hinv i j
        rw [if_neg hij] at this
        have h0 := (mul_eq_zero.1 this).resolve_left (hM.pos i).ne'
        rw [Finset.sum_eq_single j (fun k _ hk => ?_) (by simp)] at h0
        · exact (mul_eq_zero.1 h0).resolve_right (hL.diag j).ne'
        · have : j < k := lt_of_le_of_ne (by rw [Fin.le_def]; omega) (Ne.symm hk)
          rw [hL.lower j k this, mul_zero]
    | succ m ih =>
      intro j hj i hij
      rcases lt_trichotomy i j with h | h | h
      · exact hL.lower i j h
      · exact absurd h hij
      · have := hinv i j
        rw [if_neg hij] at this
        have h0 := (mul_eq_zero.1 this).resolve_left (hM.pos i).ne'
        rw [Finset.sum_eq_single j (fun k _ hk => ?_) (by simp)] at h0
        · exact (mul_eq_zero.1 h0).resolve_right (hL.diag j).ne'
        · rcases lt_or_gt_of_ne hk with hkj | hkj
          · rw [ih k (by rw [Fin.lt_def] at hkj; omega) j (Ne.symm hk), mul_zero]
          · rw [hL.lower j k hkj, mul_zero]
  intro i j
  by_cases hij : i = j
  · subst hij
    rw [if_pos rfl]
    have := hinv i i
    rw [if_pos rfl, Finset.sum_eq_single i (fun k _ hk => by rw [hoff _ k le_rfl i (Ne.symm hk), zero_mul]) (by simp)] at this
    have hs := Real.sqrt_pos.2 (hM.pos i)
    have h2 : (L i i * Real.sqrt (M i i)) ^ 2 = 1 := by
      rw [mul_pow, Real.sq_sqrt (hM.pos i).le]; linarith [this, sq (L i i)]
    have h3 : L i i * Real.sqrt (M i i) = 1 := by
      have hp := mul_pos (hL.diag i) hs
      nlinarith
    field_simp
    exact h3
  · rw [if_neg hij]; exact hoff _ j le_rfl i hij

/-- The momentum drawn by the code has density proportional to `exp (-K)`, `K` the kinetic energy the code uses, when the matrix is diagonal. -/
theorem momentum_law (M L : Mat ℝ d) (hM : IsPosDiag M) (hL : IsCholeskyInv M L) :
    ∃ C : ℝ≥0∞, (stdNormal d).map (hmcMomentum L) = volume.withDensity (fun p => C * ENNReal.ofReal (Real.exp (-hmcKinetic M p))) := by
  have hLd := cholesky_diag M L hM hL
  have hmom : hmcMomentum L = fun z i => 1 / Real.sqrt (M i i) * z i := by
    funext z i
    simp only [hmcMomentum, sumFin_eq, hLd]
    simp [mul_comm]
  have hkin : ∀ p, hmcKinetic M p = 1 / 2 * ∑ j, M j j * (p j * p j) := by
    intro p
    simp only [hmcKinetic, sumFin_eq, two]
    norm_num
    rw [Finset.sum_comm]
    refine Finset.sum_congr rfl fun j _ => ?_
    rw [Finset.sum_eq_single j (fun k _ hk => by rw [hM.off k j hk, mul_zero]) (by simp)]
    ring
  have hv : ∀ i, (1 / M i i).toNNReal ≠ 0 := fun i => by
    have := hM.pos i
    simp [Real.toNNReal_eq_zero, this]
  have h1 : ∀ i, MeasurePreserving (fun a : ℝ => 1 / Real.sqrt (M i i) * a) (gaussianReal 0 1) (gaussianReal 0 (1 / M i i).toNNReal) := by
    intro i
    refine ⟨by fun_prop, ?_⟩
    rw [gaussianReal_map_const_mul]
    congr 1
    · simp
    · have := hM.pos i
      ext
      simp only [mul_one, NNReal.coe_mk]
      rw [Real.coe_toNNReal _ (by positivity), div_pow, Real.sq_sqrt this.le, one_pow]
  refine ⟨ENNReal.ofReal (∏ i, (Real.sqrt (2 * Real.pi * (1 / M i i).toNNReal))⁻¹), ?_⟩
  rw [hmom, stdNormal, (measurePreserving_pi _ _ h1).map_eq]
  simp_rw [gaussianReal_of_var_ne_zero _ (hv _)]
  rw [pi_withDensity' _ (fun i => measurable_gaussianPDF _ _) (fun i => by rw [← gaussianReal_of_var_ne_zero _ (hv i)]; infer_instance)]
  congr 1
  funext p
  simp only [gaussianPDF, gaussianPDFReal]
  rw [← ENNReal.ofReal_prod_of_nonneg (fun i _ => by positivity), Finset.prod_mul_distrib, ENNReal.ofReal_mul (Finset.prod_nonneg fun i _ => by positivity),
    ← Real.exp_sum, hkin]
  congr 3
  rw [Finset.mul_sum, ← Finset.sum_neg_distrib]
  refine Finset.sum_congr rfl fun i _ => ?_
  have := hM.pos i
  rw [Real.coe_toNNReal _ (by positivity)]
  field_simp
  ring

theorem hmcKinetic_measurable (M : Mat ℝ d) : Measurable (hmcKinetic M) := by
  have : hmcKinetic M = fun p => 1 / two * ∑ i, ∑ j, p j * p j * M i j := by funext p; simp only [hmcKinetic, sumFin_eq]
  rw [this]
  fun_prop

theorem hmcKinetic_neg (M : Mat ℝ d) (p : Pos ℝ d) : hmcKinetic M (fun i => -p i) = hmcKinetic M p := by simp [hmcKinetic]

theorem hmcMomentum_measurable (L : Mat ℝ d) : Measurable (hmcMomentum L) := by
  refine measurable_pi_lambda _ fun i => ?_
  simp only [hmcMomentum, sumFin_eq]
  fun_prop

/-- force of the code -/
noncomputable def hmcForce (t : Target ℝ D d) (data : Data D) : Pos ℝ d → Pos ℝ d := fun y i => -(t.grad y data i)

theorem hmcForce_measurable (t : Target ℝ D d) (data : Data D) (hg : Measurable (fun x => t.grad x data)) : Measurable (hmcForce t data) := by
  refine measurable_pi_lambda _ fun i => ?_
  have := (measurable_pi_apply i).comp hg
  exact this.neg

/-- The total energy the code uses. -/
noncomputable def hmcEnergy (M : Mat ℝ d) (t : Target ℝ D d) (data : Data D) (z : Pos ℝ d × Pos ℝ d) : ℝ := -t.val z.1 data + hmcKinetic M z.2

theorem hmcEnergy_measurable (M : Mat ℝ d) (t : Target ℝ D d) (data : Data D) (ht : Measurable (fun x => t.val x data)) : Measurable (hmcEnergy M t data) :=
  (ht.comp measurable_fst).neg.add ((hmcKinetic_measurable M).comp measurable_snd)

theorem hmcStep_pos (ε : ℝ) (n : ℕ) (M L : Mat ℝ d) (t : Target ℝ D d) (data : Data D) (z x : Pos ℝ d) (u : ℝ) :
    (hmcStep ε n M L t data z u x (t.val x data)).pos =
      if acceptTest u (hmcEnergy M t data (x, hmcMomentum L z) - hmcEnergy M t data (leapfrogStep ε n M (hmcForce t data) (x, hmcMomentum L z))) = true
      then (leapfrogStep ε n M (hmcForce t data) (x, hmcMomentum L z)).1 else x := rfl

/-- **C21**, HMC: the end point of the trajectory is accepted with probability `min(1, exp (H - H'))`. -/
theorem C21_hmc (ε : ℝ) (n : ℕ) (M L : Mat ℝ d) (t : Target ℝ D d) (data : Data D) (z x : Pos ℝ d) :
    unif {u | (hmcStep ε n M L t data z u x (t.val x data)).acc = true} = ENNReal.ofReal (min 1 (Real.exp
      (hmcEnergy M t data (x, hmcMomentum L z) - hmcEnergy M t data (leapfrogStep ε n M (hmcForce t data) (x, hmcMomentum L z))))) :=
  C21_accept_probability _

theorem leapfrog_measurable (ε : ℝ) (n : ℕ) (M : Mat ℝ d) (t : Target ℝ D d) (data : Data D) (hg : Measurable (fun x => t.grad x data)) :
    Measurable (leapfrogStep ε n M (hmcForce t data)) := (C24_volume ε n M _ (hmcForce_measurable t data hg)).measurable

theorem hmcStep_measurable (ε : ℝ) (n : ℕ) (M L : Mat ℝ d) (t : Target ℝ D d) (data : Data D) (ht : Measurable (fun x => t.val x data))
    (hg : Measurable (fun x => t.grad x data)) :
    Measurable (fun p : Pos ℝ d × ((Fin d → ℝ) × ℝ) => (hmcStep ε n M L t data p.2.1 p.2.2 p.1 (t.val p.1 data)).pos) := by
  have hS : Measurable (fun p : Pos ℝ d × ((Fin d → ℝ) × ℝ) => ((p.1, hmcMomentum L p.2.1) : Pos ℝ d × Pos ℝ d)) :=
    measurable_fst.prodMk ((hmcMomentum_measurable L).comp (by fun_prop))
  have hΦ := (leapfrog_measurable ε n M t data hg).comp hS
  simp only [hmcStep_pos, acceptTest_real]
  refine Measurable.ite (measurableSet_lt (by fun_prop) ?_) (measurable_fst.comp hΦ) measurable_fst
  exact ((hmcEnergy_measurable M t data ht).comp hS).sub ((hmcEnergy_measurable M t data ht).comp hΦ)

/-- **C25 (partial).** For a diagonal `condition_matrix` with positive entries, one HMC step is reversible with respect to the density `exp (logpdf)`, for
every step size, number of leapfrog steps and gradient function.  Missing: correlated matrices, for which the statement is false (`C25_not_invariant`). -/
theorem C25_hmc_reversible_partial (ε : ℝ) (n : ℕ) (M L : Mat ℝ d) (hM : IsPosDiag M) (hL : IsCholeskyInv M L) (t : Target ℝ D d) (data : Data D)
    (ht : Measurable (fun x => t.val x data)) (hg : Measurable (fun x => t.grad x data)) :
    Reversible (targetMeasure (fun x => t.val x data)) (noise d) (fun ω x => (hmcStep ε n M L t data ω.1 ω.2 x (t.val x data)).pos) := by
  obtain ⟨C, hC⟩ := momentum_law M L hM hL
  have hf : Measurable (fun x : Fin d → ℝ => ENNReal.ofReal (Real.exp (t.val x data))) := by fun_prop
  haveI : SFinite (targetMeasure (fun x => t.val x data)) := by unfold targetMeasure; infer_instance
  have hE := hmcEnergy_measurable M t data ht
  have hΦ := leapfrog_measurable ε n M t data hg
  have hS : Measurable (fun z : (Fin d → ℝ) × (Fin d → ℝ) => ((z.1, hmcMomentum L z.2) : (Fin d → ℝ) × (Fin d → ℝ))) :=
    measurable_fst.prodMk ((hmcMomentum_measurable L).comp measurable_snd)
  set Φ : (Fin d → ℝ) × (Fin d → ℝ) → (Fin d → ℝ) × (Fin d → ℝ) := leapfrogStep ε n M (hmcForce t data) with hΦdef
  have hβ : Measurable (fun z : (Fin d → ℝ) × (Fin d → ℝ) => ENNReal.ofReal (min 1 (Real.exp (hmcEnergy M t data z - hmcEnergy M t data (Φ z))))) := by
    have := hE.comp hΦ
    simp only [Function.comp_def] at this
    fun_prop
  refine metropolis (targetMeasure (fun x => t.val x data)) (stdNormal d) (fun z => (Φ (z.1, hmcMomentum L z.2)).1) (measurable_fst.comp (hΦ.comp hS))
    (fun q => acceptTest q.2 (hmcEnergy M t data (q.1.1, hmcMomentum L q.1.2) - hmcEnergy M t data (Φ (q.1.1, hmcMomentum L q.1.2))) = true) ?_
    (fun z => ENNReal.ofReal (min 1 (Real.exp (hmcEnergy M t data (z.1, hmcMomentum L z.2) - hmcEnergy M t data (Φ (z.1, hmcMomentum L z.2))))))
    (hβ.comp hS) (fun z => C21_accept_probability (hmcEnergy M t data (z.1, hmcMomentum L z.2) - hmcEnergy M t data (Φ (z.1, hmcMomentum L z.2)))) ?_
  · simp only [acceptTest_real]
    exact measurableSet_lt (by fun_prop) (((hE.comp hS).sub (hE.comp (hΦ.comp hS))).comp measurable_fst)
  · -- move to phase space
    set π := targetMeasure (fun x => t.val x data) with hπ
    have hmap : (π.prod (stdNormal d)).map (fun z => ((z.1, hmcMomentum L z.2) : (Fin d → ℝ) × (Fin d → ℝ))) = π.prod ((stdNormal d).map (hmcMomentum L)) := by
      have h := Measure.map_prod_map (f := (id : (Fin d → ℝ) → (Fin d → ℝ))) (g := hmcMomentum L) π (stdNormal d) measurable_id (hmcMomentum_measurable L)
      rw [Measure.map_id] at h
      exact h.symm
    have hpush : ∀ (φ : (Fin d → ℝ) × (Fin d → ℝ) → (Fin d → ℝ) × (Fin d → ℝ)), Measurable φ →
        (((π.prod (stdNormal d)).withDensity (fun z => ENNReal.ofReal (min 1 (Real.exp (hmcEnergy M t data (z.1, hmcMomentum L z.2) -
          hmcEnergy M t data (Φ (z.1, hmcMomentum L z.2))))))).map (fun z => φ (z.1, hmcMomentum L z.2))) =
        ((π.prod ((stdNormal d).map (hmcMomentum L))).withDensity
          (fun z => ENNReal.ofReal (min 1 (Real.exp (hmcEnergy M t data z - hmcEnergy M t data (Φ z)))))).map φ := by
      intro φ hφ
      refine Measure.ext_of_lintegral _ fun h hh => ?_
      refine (lintegral_map hh (hφ.comp hS)).trans (Eq.trans ?_ (lintegral_map hh hφ).symm)
      refine (lintegral_withDensity_eq_lintegral_mul _ (hβ.comp hS) ((hh.comp hφ).comp hS)).trans
        (Eq.trans ?_ (lintegral_withDensity_eq_lintegral_mul _ hβ (hh.comp hφ)).symm)
      rw [← hmap]
      exact (lintegral_map (hβ.mul (hh.comp hφ)) hS).symm
    have hφ1 : Measurable (fun w : (Fin d → ℝ) × (Fin d → ℝ) => (w.1, (Φ w).1)) := measurable_fst.prodMk (measurable_fst.comp hΦ)
    have hφ2 : Measurable (fun w : (Fin d → ℝ) × (Fin d → ℝ) => ((Φ w).1, w.1)) := (measurable_fst.comp hΦ).prodMk measurable_fst
    refine (hpush _ hφ1).trans (Eq.trans ?_ (hpush _ hφ2).symm)
    have hk : Measurable (fun p : Fin d → ℝ => C * ENNReal.ofReal (Real.exp (-hmcKinetic M p))) := by
      have := hmcKinetic_measurable M
      fun_prop
    have hprod : Measurable (fun z : (Fin d → ℝ) × (Fin d → ℝ) => ENNReal.ofReal (Real.exp (t.val z.1 data)) * (C * ENNReal.ofReal (Real.exp (-hmcKinetic M z.2)))) :=
      (hf.comp measurable_fst).mul (hk.comp measurable_snd)
    rw [hC, hπ, targetMeasure, prod_withDensity hf hk, ← withDensity_mul _ hprod hβ]
    have hT : MeasurePreserving (fun z : (Fin d → ℝ) × (Fin d → ℝ) => momentumFlip (Φ z)) (volume.prod volume) (volume.prod volume) :=
      flip_preserving.comp (C24_volume ε n M _ (hmcForce_measurable t data hg))
    have hrev : ∀ z, Φ (momentumFlip (Φ z)) = momentumFlip z := C24_reversible ε n M (hmcForce t data)
    refine metropolis_involution _ _ hT _ (hprod.mul hβ) ?_ _ _ measurable_fst (measurable_fst.comp hΦ) (fun z => rfl) ?_
    · have hEf : ∀ z, hmcEnergy M t data (momentumFlip z) = hmcEnergy M t data z := by intro z; simp [hmcEnergy, momentumFlip, hmcKinetic_neg]
      have key : ∀ z, ENNReal.ofReal (Real.exp (t.val z.1 data)) * (C * ENNReal.ofReal (Real.exp (-hmcKinetic M z.2))) *
          ENNReal.ofReal (min 1 (Real.exp (hmcEnergy M t data z - hmcEnergy M t data (Φ z)))) =
          C * ENNReal.ofReal (min (Real.exp (-hmcEnergy M t data z)) (Real.exp (-hmcEnergy M t data (Φ z)))) := by
        intro z
        rw [← exp_mul_min, show -hmcEnergy M t data (Φ z) - -hmcEnergy M t data z = hmcEnergy M t data z - hmcEnergy M t data (Φ z) by ring,
          show -hmcEnergy M t data z = t.val z.1 data + -hmcKinetic M z.2 by simp only [hmcEnergy]; ring, Real.exp_add, ENNReal.ofReal_mul (Real.exp_pos _).le]
        ring
      intro z
      simp only [Pi.mul_apply]
      rw [key, key, hEf, hrev, hEf, min_comm]
    · intro z
      show (Φ (momentumFlip (Φ z))).1 = z.1
      rw [hrev]; rfl

/-- **C25 (partial).** Hence it leaves the target invariant. -/
theorem C25_hmc_invariant_partial (ε : ℝ) (n : ℕ) (M L : Mat ℝ d) (hM : IsPosDiag M) (hL : IsCholeskyInv M L) (t : Target ℝ D d) (data : Data D)
    (ht : Measurable (fun x => t.val x data)) (hg : Measurable (fun x => t.grad x data)) :
    Invariant (targetMeasure (fun x => t.val x data)) (noise d) (fun ω x => (hmcStep ε n M L t data ω.1 ω.2 x (t.val x data)).pos) := by
  haveI : SFinite (targetMeasure (fun x => t.val x data)) := by unfold targetMeasure; infer_instance
  exact (C25_hmc_reversible_partial ε n M L hM hL t data ht hg).invariant (hmcStep_measurable ε n M L t data ht hg)

/-- A concrete admissible pair: `M = diag(1, 4)`, `L = diag(1, 1/2)`. -/
example : IsPosDiag (fun i j : Fin 2 => if i = j then (if i = 0 then (1:ℝ) else 4) else 0) ∧
    IsCholeskyInv (fun i j : Fin 2 => if i = j then (if i = 0 then (1:ℝ) else 4) else 0) (fun i j : Fin 2 => if i = j then (if i = 0 then (1:ℝ) else 1 / 2) else 0) := by
  refine ⟨⟨fun i j h => if_neg h, fun i => ?_⟩, ⟨fun i j h => if_neg h.ne, fun i => ?_, fun i j => ?_⟩⟩
  · by_cases h : i = 0 <;> simp [h]
  · by_cases h : i = 0 <;> simp [h]
  · rw [Fin.sum_univ_two, Fin.sum_univ_two, Fin.sum_univ_two]
    fin_cases i <;> fin_cases j <;> norm_num

end FlowMC
