import Verif.Props.ConvergeRun
/-
C98: chains of HMC steps alone.  False in general (a trajectory can end exactly on the other side, for ever), true for short trajectories.
-/
open MeasureTheory ProbabilityTheory Filter
open scoped ENNReal Topology
set_option linter.unusedSectionVars false
namespace FlowMC
open Spec

variable {Ω D M O : Type} {d : ℕ}

/-- A standard normal log-density (up to a constant) with its gradient. -/
structure Spec.IsNormalTarget (t : Target ℝ D d) (data : Data D) : Prop where
  val : ∀ x, t.val x data = -(∑ i, x i ^ 2) / 2
  grad : ∀ x i, t.grad x data i = -x i

/-- The identity matrix. -/
def Spec.unitMat : Mat ℝ d := fun i j => if i = j then 1 else 0

theorem verlet_rotates (θ : ℝ) (hθ : Real.sin θ ≠ 0) (hθ2 : Real.sin (θ / 2) ≠ 0) (x p : Fin d → ℝ) (k : ℕ) :
    (verlet (2 * Real.sin (θ / 2)) (fun p j => p j) (fun y => y))^[k] (x, p) =
      (fun i => Real.cos (k * θ) * x i + 2 * Real.sin (θ / 2) * Real.sin (k * θ) / Real.sin θ * p i,
       fun i => Real.cos (k * θ) * p i - Real.sin θ * Real.sin (k * θ) / (2 * Real.sin (θ / 2)) * x i) := by
  induction k with
  | zero => simp
  | succ k ih =>
    rw [Function.iterate_succ_apply', ih]
    have h2 : Real.sin θ = 2 * Real.sin (θ / 2) * Real.cos (θ / 2) := by rw [← Real.sin_two_mul]; congr 1; ring
    have h3 : Real.cos θ = 1 - 2 * Real.sin (θ / 2) ^ 2 := by
      have := Real.cos_sq' (θ / 2)
      have h := Real.cos_two_mul (θ / 2)
      rw [show 2 * (θ / 2) = θ by ring] at h
      rw [h, this]; ring
    have hc : Real.cos (θ / 2) ≠ 0 := fun h => hθ (by rw [h2, h, mul_zero])
    have hcs := Real.sin_sq_add_cos_sq (θ / 2)
    have e1 : Real.cos ((k + 1 : ℕ) * θ) = Real.cos (k * θ) * Real.cos θ - Real.sin (k * θ) * Real.sin θ := by rw [← Real.cos_add]; congr 1; push_cast; ring
    have e2 : Real.sin ((k + 1 : ℕ) * θ) = Real.sin (k * θ) * Real.cos θ + Real.cos (k * θ) * Real.sin θ := by rw [← Real.sin_add]; congr 1; push_cast; ring
    rw [e1, e2, h3, h2]
    set s := Real.sin (θ / 2)
    set c := Real.cos (θ / 2)
    set C := Real.cos (k * θ)
    set S := Real.sin (k * θ)
    have hc2 : c ^ 2 = 1 - s ^ 2 := by linarith
    refine Prod.ext (funext fun i => ?_) (funext fun i => ?_)
    · simp only [verlet]
      field_simp
      ring
    · simp only [verlet]
      field_simp
      ring_nf
      have hc3 : c ^ 3 = c * (1 - s ^ 2) := by rw [← hc2]; ring
      simp only [hc3, hc2]
      ring

/-- The step size for which `n + 1` leapfrog steps in a standard normal are exactly half a turn. -/
noncomputable def Spec.halfTurn (n : ℕ) : ℝ := 2 * Real.sin (Real.pi / (n + 1) / 2)

theorem halfTurn_pos (n : ℕ) : 0 < halfTurn n := by
  unfold halfTurn
  have := Real.pi_pos
  have h1 : 0 < Real.pi / (n + 1) / 2 := by positivity
  have h2 : Real.pi / (n + 1) / 2 < Real.pi := by
    rw [div_div, div_lt_iff₀ (by positivity)]
    nlinarith
  have := Real.sin_pos_of_pos_of_lt_pi h1 h2
  positivity

theorem leapfrog_halfTurn (n : ℕ) (hn : 1 ≤ n) (t : Target ℝ D d) (data : Data D) (ht : IsNormalTarget t data) (x p : Pos ℝ d) :
    leapfrogStep (halfTurn n) n unitMat (hmcForce t data) (x, p) = (fun i => -x i, fun i => -p i) := by
  have hv : (fun (p : Fin d → ℝ) (j : Fin d) => p j * ∑ i, (unitMat i j : ℝ)) = fun p j => p j := by
    funext p j
    simp [unitMat]
  have hf : hmcForce t data = fun y => y := by funext y i; simp only [hmcForce, ht.grad, neg_neg]
  have hpi := Real.pi_pos
  have hn1 : (1 : ℝ) < n + 1 := by have : (1 : ℝ) ≤ n := by exact_mod_cast hn
                                   linarith
  have h1 : Real.sin (Real.pi / (n + 1)) ≠ 0 := (Real.sin_pos_of_pos_of_lt_pi (by positivity) (div_lt_self hpi hn1)).ne'
  have h2 : Real.sin (Real.pi / (n + 1) / 2) ≠ 0 := by
    have := halfTurn_pos n
    unfold halfTurn at this
    intro h
    rw [h] at this
    simp at this
  rw [C24_verlet, hv, hf, halfTurn, verlet_rotates _ h1 h2]
  have e : ((n + 1 : ℕ) : ℝ) * (Real.pi / (n + 1)) = Real.pi := by push_cast; field_simp
  rw [e, Real.cos_pi, Real.sin_pi]
  refine Prod.ext (funext fun i => ?_) (funext fun i => ?_) <;> simp

/-- **C98 (the claim is false in general).** For a standard normal target in any dimension, with the identity as mass matrix and any number `n ≥ 1` of leapfrog steps, there is a step size for which every HMC step moves
`x` to `-x`, whatever momentum is drawn, and is accepted. -/
theorem C98_half_turn (n : ℕ) (hn : 1 ≤ n) : ∃ ε : ℝ, 0 < ε ∧ ∀ (d : ℕ) (t : Target ℝ D d) (data : Data D), IsNormalTarget t data → ∀ (z : Pos ℝ d) (u : ℝ) (x : Pos ℝ d), 0 < u → u < 1 →
    (hmcStep ε n unitMat unitMat t data z u x (t.val x data)).pos = (fun i => -x i) ∧ (hmcStep ε n unitMat unitMat t data z u x (t.val x data)).acc = true := by
  refine ⟨halfTurn n, halfTurn_pos n, fun d t data ht z u x h0 h1 => ?_⟩
  have hacc : acceptTest u (hmcEnergy unitMat t data (x, hmcMomentum unitMat z) - hmcEnergy unitMat t data (leapfrogStep (halfTurn n) n unitMat (hmcForce t data) (x, hmcMomentum unitMat z))) = true := by
    rw [acceptTest_real, leapfrog_halfTurn n hn t data ht]
    have : hmcEnergy unitMat t data ((fun i => -x i, fun i => -hmcMomentum unitMat z i) : Pos ℝ d × Pos ℝ d) = hmcEnergy unitMat t data (x, hmcMomentum unitMat z) := by
      simp only [hmcEnergy, hmcKinetic, ht.val, neg_sq, neg_mul_neg]
    rw [this, sub_self]
    exact Real.log_neg h0 h1
  refine ⟨?_, hacc⟩
  rw [hmcStep_pos, if_pos hacc, leapfrog_halfTurn n hn t data ht]

/-- The distribution after one such step is the reflected distribution. -/
theorem halfTurn_law (n : ℕ) (hn : 1 ≤ n) (t : Target ℝ D d) (data : Data D) (ht : IsNormalTarget t data) (ε : ℝ)
    (hε : ∀ (z : Pos ℝ d) (u : ℝ) (x : Pos ℝ d), 0 < u → u < 1 → (hmcStep ε n unitMat unitMat t data z u x (t.val x data)).pos = fun i => -x i) (μ : Measure (Pos ℝ d)) [SFinite μ] :
    stepLaw (noise d) (fun ω x => (hmcStep ε n unitMat unitMat t data ω.1 ω.2 x (t.val x data)).pos) μ = μ.map fun x i => -x i := by
  haveI : IsProbabilityMeasure (noise d) := by unfold noise; infer_instance
  have hm : Measurable fun (x : Pos ℝ d) i => -x i := by fun_prop
  have hu : ∀ᵐ ω ∂noise d, 0 < ω.2 ∧ ω.2 < 1 := by
    have h1 : ∀ᵐ u ∂unif, 0 < u ∧ u < 1 := by
      unfold unif
      rw [ae_restrict_iff' measurableSet_Ico]
      filter_upwards [compl_mem_ae_iff.2 (measure_singleton (μ := (volume : Measure ℝ)) 0)] with u hu h
      exact ⟨lt_of_le_of_ne h.1 (Ne.symm hu), h.2⟩
    have h2 : (noise d).map Prod.snd = unif := by unfold noise; simp
    rw [← h2] at h1
    exact ae_of_ae_map measurable_snd.aemeasurable h1
  unfold stepLaw
  have h3 : (fun p : Pos ℝ d × (Pos ℝ d × ℝ) => (hmcStep ε n unitMat unitMat t data p.2.1 p.2.2 p.1 (t.val p.1 data)).pos) =ᵐ[μ.prod (noise d)] fun p => (fun (x : Pos ℝ d) i => -x i) p.1 := by
    have h4 : ∀ᵐ p ∂(μ.prod (noise d)), 0 < p.2.2 ∧ p.2.2 < 1 := Measure.quasiMeasurePreserving_snd.ae hu
    filter_upwards [h4] with p hp
    exact hε _ _ _ hp.1 hp.2
  have h5 : (fun p : Pos ℝ d × (Pos ℝ d × ℝ) => (fun (x : Pos ℝ d) i => -x i) p.1) = (fun (x : Pos ℝ d) i => -x i) ∘ Prod.fst := rfl
  rw [Measure.map_congr h3, h5, ← Measure.map_map hm measurable_fst]
  simp

/-- **C98 (the claim is false in general).** Hence such a chain does not converge: started at any point, or with any distribution that sits on one side of a coordinate plane (it may have a density, and may be
the target restricted to a half space), its distribution keeps a distance of `1/2` in the probability of some event. -/
theorem C98_no_convergence (n : ℕ) (hn : 1 ≤ n) : ∃ ε : ℝ, 0 < ε ∧ ∀ (d : ℕ) (t : Target ℝ D d) (data : Data D), IsNormalTarget t data → ∀ (i : Fin d) (μ : Measure (Pos ℝ d)), IsProbabilityMeasure μ →
    μ {x | 0 < x i} = 1 → ¬ TVConverges (fun k => (stepLaw (noise d) fun ω x => (hmcStep ε n unitMat unitMat t data ω.1 ω.2 x (t.val x data)).pos)^[k] μ)
      (normalised (targetMeasure fun x => t.val x data)) := by
  obtain ⟨ε, h0, hε⟩ := C98_half_turn (D := D) n hn
  refine ⟨ε, h0, fun d t data ht i μ hμ hpos hconv => ?_⟩
  set Q := stepLaw (noise d) fun ω x => (hmcStep ε n unitMat unitMat t data ω.1 ω.2 x (t.val x data)).pos with hQ
  have hm : Measurable fun (x : Pos ℝ d) i => -x i := by fun_prop
  have hstep : ∀ ν : Measure (Pos ℝ d), SFinite ν → Q ν = ν.map fun x i => -x i := fun ν _ => halfTurn_law n hn t data ht ε (fun z u x a b => (hε d t data ht z u x a b).1) ν
  have hQ2 : ∀ ν : Measure (Pos ℝ d), SFinite ν → Q (Q ν) = ν := by
    intro ν hν
    rw [hstep ν hν]
    haveI : SFinite (ν.map fun (x : Pos ℝ d) i => -x i) := inferInstance
    rw [hstep _ this, Measure.map_map hm hm]
    have : ((fun (x : Pos ℝ d) i => -x i) ∘ fun (x : Pos ℝ d) i => -x i) = id := by funext x i; simp
    rw [this, Measure.map_id]
  have hev : ∀ k, Q^[2 * k] μ = μ := by
    intro k
    induction k with
    | zero => rfl
    | succ k ih =>
      rw [show 2 * (k + 1) = 2 * k + 1 + 1 by ring, Function.iterate_succ_apply', Function.iterate_succ_apply', ih]
      exact hQ2 μ inferInstance
  have hA : MeasurableSet {x : Pos ℝ d | 0 < x i} := measurableSet_lt measurable_const (measurable_pi_apply i)
  obtain ⟨N, hN⟩ := hconv (1 / 8) (by norm_num)
  have h1 := hN (2 * N) (by omega) _ hA
  have h2 := hN (2 * N + 1) (by omega) _ hA
  dsimp only at h1 h2
  rw [Function.iterate_succ_apply', hev, hstep μ inferInstance] at h2
  rw [hev] at h1
  have e1 : μ.real {x | 0 < x i} = 1 := by rw [measureReal_def, hpos]; rfl
  have e2 : (μ.map fun (x : Pos ℝ d) i => -x i).real {x | 0 < x i} = 0 := by
    rw [map_measureReal_apply hm hA]
    have hsub : (fun (x : Pos ℝ d) i => -x i) ⁻¹' {x | 0 < x i} ⊆ {x | 0 < x i}ᶜ := by
      intro x hx hx'
      simp only [Set.mem_preimage, Set.mem_setOf_eq] at hx hx'
      linarith
    have : μ.real {x | 0 < x i}ᶜ = 0 := by rw [probReal_compl_eq_one_sub hA, e1, sub_self]
    exact le_antisymm ((measureReal_mono hsub).trans this.le) measureReal_nonneg
  rw [e1] at h1
  rw [e2] at h2
  rw [abs_le] at h1 h2
  linarith [h1.1, h1.2, h2.1, h2.2]

/-- **C98 (the claim is false in general).** What a user sees: with such settings row `j` of every chain is its starting point up to the sign, whatever the key. -/
theorem C98_rows_half_turn (n : ℕ) (hn : 1 ≤ n) : ∃ ε : ℝ, 0 < ε ∧ ∀ (d : ℕ) (t : Target ℝ D d) (data : Data D), IsNormalTarget t data → ∀ (rng : Rng ℝ), (∀ k, 0 < rng.uniform k ∧ rng.uniform k < 1) →
    ∀ (K : LocalKernel ℝ D d), (KernelRes.hmc ε n unitMat unitMat : KernelRes ℝ d M).local? rng = some K → ∀ (steps : ℕ) (k : Key) (x : Pos ℝ d) (j : ℕ), j < steps →
      ((serialSample K t data steps k x)[j]?).map (·.pos) = some (fun i => (-1) ^ (j + 1) * x i) := by
  obtain ⟨ε, h0, hε⟩ := C98_half_turn (D := D) n hn
  refine ⟨ε, h0, fun d t data ht rng hu K hK steps k x j hj => ?_⟩
  have key : ∀ (j : ℕ) (k : Key) (x : Pos ℝ d), (iterState (localBody K t data) j (k, x, t.val x data)).2.1 = fun i => (-1) ^ j * x i := by
    intro j
    induction j with
    | zero => intro k x; simp [iterState]
    | succ j ih =>
      intro k x
      have hb : ∃ k', (localBody K t data (k, x, t.val x data)).1 = (k', (fun i => -x i), t.val (fun i => -x i) data) := by
        simp only [KernelRes.local?, Option.some.injEq] at hK
        subst hK
        refine ⟨_, Prod.ext rfl (Prod.ext ?_ ?_)⟩
        · exact (hε d t data ht _ _ x (hu _).1 (hu _).2).1
        · have hl : ∀ (z : Pos ℝ d) (u : ℝ), (hmcStep ε n unitMat unitMat t data z u x (t.val x data)).logp = t.val (hmcStep ε n unitMat unitMat t data z u x (t.val x data)).pos data := by
            intro z u
            simp only [hmcStep]
            split_ifs
            · rw [neg_neg]
            · rfl
          refine (hl _ _).trans ?_
          rw [(hε d t data ht _ _ x (hu _).1 (hu _).2).1]
      obtain ⟨k', e⟩ := hb
      rw [iterState, e, ih]
      funext i
      ring
  rw [← key (j + 1) k x]
  exact serialSample_state K t data steps k x (j + 1) hj

/-- **C98 (partial).** HMC with a diagonal mass matrix and trajectories that are short compared with the curvature of the log-density (`ShortTrajectory`; a single leapfrog step is always short) converges in total
variation from every start.  Missing: longer trajectories, for which the statement is false (`C98_no_convergence`). -/
theorem C98_short_partial (ε : ℝ) (n : ℕ) (Mm L : Mat ℝ d) (hM : IsPosDiag Mm) (hL : IsCholeskyInv Mm L) (t : Target ℝ D d) (data : Data D) (hs : ShortTrajectory ε n Mm fun x => t.grad x data)
    (ht : Measurable (fun x => t.val x data)) (hg : Measurable (fun x => t.grad x data)) (hfin : targetMeasure (fun x => t.val x data) Set.univ ≠ ∞) (μ : Measure (Pos ℝ d)) [IsProbabilityMeasure μ] :
    TVConverges (fun k => (stepLaw (noise d) fun ω x => (hmcStep ε n Mm L t data ω.1 ω.2 x (t.val x data)).pos)^[k] μ) (normalised (targetMeasure fun x => t.val x data)) :=
  tv_of_good ((hmc_mhData ε n Mm L hM hL t data hs ht hg).good ht hfin μ inferInstance)

section
variable {past : MeasurableSpace Ω} {sig : Key → MeasurableSpace Ω} [mΩ : MeasurableSpace Ω] {P : Measure Ω} [IsProbabilityMeasure P] {env : Ω → Env ℝ D d M O}

/-- **C98 (partial).** The same for the rows of a chain of HMC steps (`TakeSerialSteps`). -/
theorem C98_rows_partial (h : IdealDraws past sig P env) (step : ℝ) (m : ℕ) (Mm L : Mat ℝ d) (hM : IsPosDiag Mm) (hL : IsCholeskyInv Mm L) (t : Target ℝ D d) (data : Data D)
    (hs : ShortTrajectory step m Mm fun x => t.grad x data) (K : Ω → LocalKernel ℝ D d) (hK : ∀ ω, (KernelRes.hmc step m Mm L : KernelRes ℝ d M).local? (env ω).rng = some (K ω))
    (ht : Measurable (fun x => t.val x data)) (hg : Measurable (fun x => t.grad x data)) (hfin : targetMeasure (fun x => t.val x data) Set.univ ≠ ∞) (X : Ω → Pos ℝ d) (hX : Measurable[past] X)
    (ε : ℝ) (hε : 0 < ε) :
    ∃ N, ∀ (n : ℕ) (k : Key) (j : ℕ), N ≤ j → j < n → ∃ Y : Ω → Pos ℝ d, (∀ ω, ((serialSample (K ω) t data n k (X ω))[j]?).map (·.pos) = some (Y ω)) ∧ Measurable Y ∧
      CloseInLaw P Y (normalised (targetMeasure fun x => t.val x data)) ε :=
  C70_serial_rows h (.hmc step m Mm L) K hK t data ⟨hM, hL, hs⟩ ht hg hfin X hX ε hε

end

end FlowMC
