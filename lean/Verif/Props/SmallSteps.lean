import Verif.Props.AcceptRate
import Mathlib.MeasureTheory.Integral.DominatedConvergence
/-
C108: as the step size goes to zero, local moves are accepted with probability tending to one.
-/
open MeasureTheory ProbabilityTheory Filter
open scoped ENNReal Topology
set_option linter.unusedSectionVars false
namespace FlowMC
open Spec

variable {Ω D M O : Type} {d : ℕ}

/-- The same local kernel with another step size. -/
def Spec.withStep (kr : KernelRes ℝ d M) (s : ℝ) : KernelRes ℝ d M :=
  match kr with
  | .grw _ => .grw s
  | .mala _ => .mala s
  | .hmc _ n m L => .hmc s n m L
  | .nf m b => .nf m b

/-- A kernel that has a step size. -/
def Spec.IsLocal (kr : KernelRes ℝ d M) : Prop := ∀ m b, kr ≠ .nf m b

/-- The acceptance probabilities of a family of kernels are `min 1 (exp Λ)` for a function `Λ` that is continuous in the step size, the draws and the position and vanishes at step size 0. -/
structure SmallRatio (acc : ℝ → Pos ℝ d → Pos ℝ d → ℝ) (Λ : ℝ × Pos ℝ d × Pos ℝ d → ℝ) : Prop where
  cont : Continuous Λ
  zero : ∀ ξ x, Λ (0, ξ, x) = 0
  eq : ∀ s ≠ 0, ∀ ξ x, acc s ξ x = min 1 (Real.exp (Λ (s, ξ, x)))

theorem SmallRatio.pointwise {acc : ℝ → Pos ℝ d → Pos ℝ d → ℝ} {Λ : ℝ × Pos ℝ d × Pos ℝ d → ℝ} (h : SmallRatio acc Λ) (ξ x : Pos ℝ d) :
    Tendsto (fun s => acc s ξ x) (𝓝[≠] 0) (𝓝 1) := by
  have hc : Continuous fun s : ℝ => min 1 (Real.exp (Λ (s, ξ, x))) := by
    have := h.cont
    fun_prop
  have := (hc.tendsto 0).mono_left (nhdsWithin_le_nhds (s := {0}ᶜ))
  rw [h.zero, Real.exp_zero, min_self] at this
  refine this.congr' ?_
  filter_upwards [self_mem_nhdsWithin] with s hs using (h.eq s hs ξ x).symm

theorem SmallRatio.rate {acc : ℝ → Pos ℝ d → Pos ℝ d → ℝ} {Λ : ℝ × Pos ℝ d × Pos ℝ d → ℝ} (h : SmallRatio acc Λ) (μ : Measure (Pos ℝ d)) [IsProbabilityMeasure μ] :
    Tendsto (fun s => ∫ x, ∫ ξ, acc s ξ x ∂(stdNormal d) ∂μ) (𝓝[≠] 0) (𝓝 1) := by
  haveI : IsProbabilityMeasure (stdNormal d) := by unfold stdNormal; infer_instance
  have hbd : ∀ s ξ x, ‖min 1 (Real.exp (Λ (s, ξ, x)))‖ ≤ 1 := fun s ξ x => by
    rw [Real.norm_of_nonneg (le_min zero_le_one (Real.exp_pos _).le)]; exact min_le_left _ _
  have hcont : ∀ s, Continuous fun p : Pos ℝ d × Pos ℝ d => min 1 (Real.exp (Λ (s, p.2, p.1))) := fun s => by
    have := h.cont
    fun_prop
  have inner : ∀ x, Tendsto (fun s => ∫ ξ, min 1 (Real.exp (Λ (s, ξ, x))) ∂(stdNormal d)) (𝓝[≠] 0) (𝓝 1) := by
    intro x
    have e : (1 : ℝ) = ∫ _ξ, (1 : ℝ) ∂(stdNormal d) := by simp
    conv => rhs; rw [e]
    refine tendsto_integral_filter_of_dominated_convergence (fun _ => 1) (Eventually.of_forall fun s => ?_) (Eventually.of_forall fun s => ae_of_all _ fun ξ => hbd s ξ x) (integrable_const _)
      (ae_of_all _ fun ξ => ?_)
    · exact ((hcont s).comp (Continuous.prodMk continuous_const continuous_id)).aestronglyMeasurable
    · refine (h.pointwise ξ x).congr' ?_
      filter_upwards [self_mem_nhdsWithin] with s hs using h.eq s hs ξ x
  have outer : Tendsto (fun s => ∫ x, ∫ ξ, min 1 (Real.exp (Λ (s, ξ, x))) ∂(stdNormal d) ∂μ) (𝓝[≠] 0) (𝓝 1) := by
    have e : (1 : ℝ) = ∫ _x, (1 : ℝ) ∂μ := by simp
    conv => rhs; rw [e]
    refine tendsto_integral_filter_of_dominated_convergence (fun _ => 1) (Eventually.of_forall fun s => ?_) (Eventually.of_forall fun s => ae_of_all _ fun x => ?_) (integrable_const _) (ae_of_all _ inner)
    · exact ((hcont s).measurable.stronglyMeasurable.integral_prod_right (ν := stdNormal d)).aestronglyMeasurable
    · refine (norm_integral_le_of_norm_le_const (ae_of_all _ fun ξ => hbd s ξ x)).trans ?_
      simp
  refine outer.congr' ?_
  filter_upwards [self_mem_nhdsWithin] with s hs
  refine integral_congr_ae (ae_of_all _ fun x => integral_congr_ae (ae_of_all _ fun ξ => (h.eq s hs ξ x).symm))

theorem grw_small (t : Target ℝ D d) (data : Data D) (hv : Continuous fun x => t.val x data) :
    SmallRatio (fun s ξ x => acceptAt (.grw s : KernelRes ℝ d M) t data ξ x) (fun p => t.val (fun i => p.2.2 i + p.2.1 i * p.1) data - t.val p.2.2 data) where
  cont := by
    refine Continuous.sub (hv.comp (f := fun p : ℝ × Pos ℝ d × Pos ℝ d => (fun i => p.2.2 i + p.2.1 i * p.1 : Pos ℝ d)) ?_) (hv.comp (continuous_snd.comp continuous_snd))
    fun_prop
  zero ξ x := by simp
  eq s _ ξ x := by simp only [acceptAt, Real.exp_sub]

/-- `log` of MALA's ratio, without dividing by the step size. -/
noncomputable def malaLog (t : Target ℝ D d) (data : Data D) (p : ℝ × Pos ℝ d × Pos ℝ d) : ℝ :=
  let y : Pos ℝ d := fun i => p.2.2 i + p.1 ^ 2 / 2 * t.grad p.2.2 data i + p.1 * p.2.1 i
  t.val y data - t.val p.2.2 data + ∑ i, (p.2.1 i ^ 2 / 2 - (p.2.1 i + p.1 / 2 * (t.grad p.2.2 data i + t.grad y data i)) ^ 2 / 2)

theorem normal_ratio (x y a b : Pos ℝ d) (c : ℝ) (hc : 0 < c) : normalDensity x a c / normalDensity y b c = Real.exp (∑ i, ((y i - b i) ^ 2 / (2 * c) - (x i - a i) ^ 2 / (2 * c))) := by
  unfold normalDensity
  rw [← Finset.prod_div_distrib, Real.exp_sum]
  refine Finset.prod_congr rfl fun i _ => ?_
  have hs : (Real.sqrt (2 * Real.pi * c)) ≠ 0 := (Real.sqrt_pos.2 (by positivity)).ne'
  simp only [gaussianPDFReal, Real.coe_toNNReal _ hc.le]
  rw [mul_div_mul_left _ _ (inv_ne_zero hs), ← Real.exp_sub]
  congr 1
  ring

theorem mala_small (t : Target ℝ D d) (data : Data D) (hv : Continuous fun x => t.val x data) (hg : Continuous fun x => t.grad x data) :
    SmallRatio (fun s ξ x => acceptAt (.mala s : KernelRes ℝ d M) t data ξ x) (malaLog t data) where
  cont := by
    have hgi : ∀ i, Continuous fun x => t.grad x data i := fun i => (continuous_apply i).comp hg
    have hy : Continuous fun p : ℝ × Pos ℝ d × Pos ℝ d => (fun i => p.2.2 i + p.1 ^ 2 / 2 * t.grad p.2.2 data i + p.1 * p.2.1 i : Pos ℝ d) := by
      refine continuous_pi fun i => ?_
      have := (hgi i).comp (continuous_snd.comp (continuous_snd : Continuous fun p : ℝ × Pos ℝ d × Pos ℝ d => p.2))
      exact ((by fun_prop : Continuous fun p : ℝ × Pos ℝ d × Pos ℝ d => p.2.2 i).add ((by fun_prop : Continuous fun p : ℝ × Pos ℝ d × Pos ℝ d => p.1 ^ 2 / 2).mul this)).add (by fun_prop)
    unfold malaLog
    refine ((hv.comp hy).sub (hv.comp (continuous_snd.comp continuous_snd))).add (continuous_finsetSum _ fun i _ => ?_)
    have h1 := (hgi i).comp (continuous_snd.comp (continuous_snd : Continuous fun p : ℝ × Pos ℝ d × Pos ℝ d => p.2))
    have h2 := (hgi i).comp hy
    have h3 : Continuous fun p : ℝ × Pos ℝ d × Pos ℝ d => p.2.1 i := by fun_prop
    exact ((h3.pow 2).div_const 2).sub (((h3.add ((continuous_fst.div_const 2).mul (h1.add h2))).pow 2).div_const 2)
  zero ξ x := by simp [malaLog]
  eq s hs ξ x := by
    have hc : 0 < s ^ 2 := by positivity
    simp only [acceptAt, malaLog]
    rw [mul_div_mul_comm, normal_ratio _ _ _ _ _ hc, ← Real.exp_sub, ← Real.exp_add]
    congr 3
    refine Finset.sum_congr rfl fun i _ => ?_
    field_simp
    ring

theorem leapfrog_zero (n : ℕ) (m : Mat ℝ d) (g : Pos ℝ d → Pos ℝ d) (z : Pos ℝ d × Pos ℝ d) : leapfrogStep 0 n m g z = z := by
  unfold leapfrogStep
  generalize List.range (n + 2) = l
  induction l generalizing z with
  | nil => rfl
  | cons a l ih =>
    rw [List.foldl_cons, ih]
    simp [leapfrogBody]

theorem leapfrog_cont (n : ℕ) (m : Mat ℝ d) (g : Pos ℝ d → Pos ℝ d) (hg : Continuous g) : Continuous fun p : ℝ × (Pos ℝ d × Pos ℝ d) => leapfrogStep p.1 n m g p.2 := by
  unfold leapfrogStep
  suffices H : ∀ (l : List ℕ) (f : ℝ × (Pos ℝ d × Pos ℝ d) → Pos ℝ d × Pos ℝ d), Continuous f → Continuous fun p => l.foldl (fun s i => leapfrogBody p.1 n m g i s) (f p) from
    H _ _ continuous_snd
  intro l
  induction l with
  | nil => intro f hf; exact hf
  | cons a l ih =>
    intro f hf
    simp only [List.foldl_cons]
    refine ih (fun p => leapfrogBody p.1 n m g a (f p)) ?_
    have hx : Continuous fun p : ℝ × (Pos ℝ d × Pos ℝ d) => (leapfrogBody p.1 n m g a (f p)).1 := by
      simp only [leapfrogBody, hmcKineticGrad]
      refine continuous_pi fun i => ?_
      have h1 : Continuous fun p => (f p).1 i := (continuous_apply i).comp (continuous_fst.comp hf)
      have h2 : Continuous fun p => (f p).2 i := (continuous_apply i).comp (continuous_snd.comp hf)
      exact h1.add ((continuous_fst.mul continuous_const).mul (h2.mul continuous_const))
    refine Continuous.prodMk hx (continuous_pi fun i => ?_)
    have h2 : Continuous fun p => (f p).2 i := (continuous_apply i).comp (continuous_snd.comp hf)
    exact h2.sub ((continuous_fst.mul continuous_const).mul ((continuous_apply i).comp (hg.comp hx)))

theorem hmc_small (n : ℕ) (m L : Mat ℝ d) (t : Target ℝ D d) (data : Data D) (hv : Continuous fun x => t.val x data) (hg : Continuous fun x => t.grad x data) :
    SmallRatio (fun s ξ x => acceptAt (.hmc s n m L : KernelRes ℝ d M) t data ξ x)
      (fun p => hmcEnergy m t data (p.2.2, hmcMomentum L p.2.1) - hmcEnergy m t data (leapfrogStep p.1 n m (hmcForce t data) (p.2.2, hmcMomentum L p.2.1))) where
  cont := by
    have hf : Continuous (hmcForce t data) := continuous_pi fun i => ((continuous_apply i).comp hg).neg
    have hmom : Continuous fun p : ℝ × Pos ℝ d × Pos ℝ d => hmcMomentum L p.2.1 := by
      refine continuous_pi fun i => ?_
      simp only [hmcMomentum, sumFin_eq]
      fun_prop
    have hz : Continuous fun p : ℝ × Pos ℝ d × Pos ℝ d => (p.2.2, hmcMomentum L p.2.1) := (continuous_snd.comp continuous_snd).prodMk hmom
    have hE : Continuous (hmcEnergy m t data) := by
      unfold hmcEnergy hmcKinetic
      simp only [sumFin_eq]
      exact (hv.comp continuous_fst).neg.add (by fun_prop)
    exact (hE.comp hz).sub (hE.comp ((leapfrog_cont n m _ hf).comp (continuous_fst.prodMk hz)))
  zero ξ x := by simp [leapfrog_zero]
  eq s _ ξ x := rfl

/-- **C108 (one step).** From every position and for all normal draws, the probability that a local kernel accepts its proposal tends to 1 as its step size tends to 0, if the log-density and its gradient are continuous
(the gradient need not be that of the log-density; HMC: any condition matrix, any fixed number of leapfrog steps). -/
theorem C108_step (kr : KernelRes ℝ d M) (hk : IsLocal kr) (t : Target ℝ D d) (data : Data D) (hv : Continuous fun x => t.val x data) (hg : Continuous fun x => t.grad x data) (ξ x : Pos ℝ d) :
    Tendsto (fun s => acceptAt (withStep kr s) t data ξ x) (𝓝[≠] 0) (𝓝 1) := by
  cases kr with
  | grw _ => exact (grw_small (M := M) t data hv).pointwise ξ x
  | mala _ => exact (mala_small (M := M) t data hv hg).pointwise ξ x
  | hmc _ n m L => exact (hmc_small (M := M) n m L t data hv hg).pointwise ξ x
  | nf m b => exact absurd rfl (hk m b)

/-- **C108 (acceptance rates).** The mean acceptance probability from any distribution of positions, in particular the stationary acceptance rate, tends to 1 as the step size tends to 0. -/
theorem C108_rate (kr : KernelRes ℝ d M) (hk : IsLocal kr) (t : Target ℝ D d) (data : Data D) (hv : Continuous fun x => t.val x data) (hg : Continuous fun x => t.grad x data)
    (μ : Measure (Pos ℝ d)) [IsProbabilityMeasure μ] : Tendsto (fun s => localRate (withStep kr s) t data μ) (𝓝[≠] 0) (𝓝 1) := by
  cases kr with
  | grw _ => exact (grw_small (M := M) t data hv).rate μ
  | mala _ => exact (mala_small (M := M) t data hv hg).rate μ
  | hmc _ n m L => exact (hmc_small (M := M) n m L t data hv hg).rate μ
  | nf m b => exact absurd rfl (hk m b)

theorem AcceptanceAfter.mono [BufNum ℝ] {past : MeasurableSpace Ω} {sig : Key → MeasurableSpace Ω} [mΩ : MeasurableSpace Ω] {P : Measure Ω} [IsProbabilityMeasure P] {env : Ω → Env ℝ D d M O}
    {r0 : String → Option (Resource ℝ D d M O)} {data : Data D} {strats : String → Option (Strategy ℝ D d M O)} {names : List String} {k : Key} {X : Ω → Pos ℝ d} {r r' δ δ' ε : ℝ} {s : TakeSteps} {rows : ℕ}
    (h : AcceptanceAfter env P r0 data strats names k X r δ ε s rows) (hr : |r - r'| ≤ δ' - δ) : AcceptanceAfter env P r0 data strats names k X r' δ' ε s rows := by
  intro w w' w'' i a1 a2 a3 a4 a5 n cap cur a6 Pn L A bP bL bA a7 a8 a9 a10
  obtain ⟨b, hb, hp⟩ := h w w' w'' i a1 a2 a3 a4 a5 n cap cur a6 Pn L A bP bL bA a7 a8 a9 a10
  refine ⟨b, hb, (measureReal_mono ?_).trans hp⟩
  intro ω hω
  simp only [Set.mem_setOf_eq] at hω ⊢
  have := abs_sub_le ((∑ j ∈ Finset.range rows, (b ω).data.get [i, cur + j]) / rows) r r'
  linarith

/-- **C108 (what the buffers show).** For every tolerance there is a step size `s₀` such that for all smaller step sizes, in every world and after any calls of exact strategies, the acceptance flags recorded by a long enough
call of a stepper that uses the kernel average to 1 up to the tolerance, with any confidence. -/
theorem C108_recorded [BufNum ℝ] (kr : KernelRes ℝ d M) (hk : IsLocal kr) (t : Target ℝ D d) (data : Data D) (hv : Continuous fun x => t.val x data) (hg : Continuous fun x => t.grad x data)
    (μ : Measure (Pos ℝ d)) [IsProbabilityMeasure μ] (hμ : SamplesFrom μ fun x => t.val x data) (h1 : (BufNum.ofBool true : ℝ) = 1) (h0 : (BufNum.ofBool false : ℝ) = 0) (δ : ℝ) (hδ : 0 < δ) :
    ∃ s₀ > 0, ∀ σ, 0 < |σ| → |σ| < s₀ → ExactSettings (withStep kr σ) → MixingSettings (fun x => t.grad x data) (withStep kr σ) →
      ∀ {past : MeasurableSpace Ω} {sig : Key → MeasurableSpace Ω} [mΩ : MeasurableSpace Ω] {P : Measure Ω} [IsProbabilityMeasure P] {env : Ω → Env ℝ D d M O} (k : Key) (_ : IdealOn (Desc k) past sig P env)
        (r0 : String → Option (Resource ℝ D d M O)) (strats : String → Option (Strategy ℝ D d M O)) (names : List String)
        (_ : ∀ name ∈ names, ∀ s, strats name = some s → ExactStrategy (Desc k) P sig env r0 data μ s) (s : TakeSteps) (_ : s.kind = .serial) (_ : r0 s.kernelName = some (.kernel (withStep kr σ)))
        (lr : Resource ℝ D d M O) (_ : r0 s.logpdfName = some lr) (_ : lr.target? = some t) (X : Ω → Pos ℝ d) (_ : Measurable[past] X) (ε : ℝ) (_ : 0 < ε),
        ∃ L, ∀ N, L ≤ ceilDiv' N s.thinning → AcceptanceAfter env P r0 data strats names k X 1 δ ε { s with nSteps := N } (ceilDiv' N s.thinning) := by
  have ht := C108_rate kr hk t data hv hg μ
  obtain ⟨s₀, hs0, hs⟩ := Metric.tendsto_nhdsWithin_nhds.1 ht (δ / 2) (by linarith)
  refine ⟨s₀, hs0, fun σ p1 p2 hx hmix past sig mΩ P _ env k h r0 strats names hst s hser hkr lr hlr htr X hXm ε hε => ?_⟩
  have hr : |localRate (withStep kr σ) t data μ - 1| < δ / 2 := by
    have := hs (x := σ) (by simpa using abs_pos.1 p1) (by simpa [Real.dist_eq] using p2)
    rwa [Real.dist_eq] at this
  obtain ⟨L, hL⟩ := C104_local k h r0 data μ h1 h0 strats names hst s hser (withStep kr σ) hkr hx lr hlr t htr hv.measurable hg.measurable hμ hmix X hXm (δ / 2) ε (by linarith) hε
  refine ⟨L, fun N hN => AcceptanceAfter.mono (past := past) (sig := sig) (hL N hN) (by linarith)⟩

/-- Non-vacuity: for the standard normal log-density in two dimensions the rates of the random walk, of MALA and of HMC with three leapfrog steps and the identity matrix tend to 1. -/
example (t : Target ℝ D 2) (data : Data D) (hv : ∀ x, t.val x data = -(x 0 ^ 2 + x 1 ^ 2) / 2) (hg : ∀ x, t.grad x data = fun i => -x i) :
    Tendsto (fun s => localRate (.grw s : KernelRes ℝ 2 Unit) t data (stdNormal 2)) (𝓝[≠] 0) (𝓝 1) ∧
    Tendsto (fun s => localRate (.mala s : KernelRes ℝ 2 Unit) t data (stdNormal 2)) (𝓝[≠] 0) (𝓝 1) ∧
    Tendsto (fun s => localRate (.hmc s 3 (fun i j => if i = j then 1 else 0) (fun i j => if i = j then 1 else 0) : KernelRes ℝ 2 Unit) t data (stdNormal 2)) (𝓝[≠] 0) (𝓝 1) := by
  haveI : IsProbabilityMeasure (stdNormal 2) := by unfold stdNormal; infer_instance
  have c1 : Continuous fun x => t.val x data := by simp only [hv]; fun_prop
  have c2 : Continuous fun x => t.grad x data := by simp only [hg]; fun_prop
  exact ⟨C108_rate (.grw 1) (by intro m b; simp) t data c1 c2 _, C108_rate (.mala 1) (by intro m b; simp) t data c1 c2 _, C108_rate (.hmc 1 3 _ _) (by intro m b; simp) t data c1 c2 _⟩

end FlowMC
