import Verif.Lemmas.TransOp
import Verif.Spec.Converge
import Mathlib.MeasureTheory.Measure.Decomposition.RadonNikodym
import Mathlib.Topology.Algebra.InfiniteSum.Real
/-
Convergence in total variation of the iterates of a transformation of measures.  No code of /repo is modelled here.
-/
open MeasureTheory ProbabilityTheory Filter Topology
open scoped InnerProductSpace ENNReal
namespace FlowMC
open Spec
noncomputable section

variable {X : Type} [MeasurableSpace X]

/-- A transformation of distributions that respects mixtures and total mass. -/
structure MassMap (Q : Measure X → Measure X) : Prop where
  add : ∀ μ μ' : Measure X, IsFiniteMeasure μ → IsFiniteMeasure μ' → Q (μ + μ') = Q μ + Q μ'
  mass : ∀ μ : Measure X, IsFiniteMeasure μ → Q μ Set.univ = μ Set.univ

theorem MassMap.finite {Q : Measure X → Measure X} (h : MassMap Q) {μ : Measure X} (hμ : IsFiniteMeasure μ) : IsFiniteMeasure (Q μ) :=
  ⟨by rw [h.mass μ hμ]; exact measure_lt_top μ _⟩

theorem MassMap.comp {Q R : Measure X → Measure X} (hQ : MassMap Q) (hR : MassMap R) : MassMap (fun μ => Q (R μ)) where
  add μ μ' h h' := by rw [hR.add μ μ' h h', hQ.add _ _ (hR.finite h) (hR.finite h')]
  mass μ h := by rw [hQ.mass _ (hR.finite h), hR.mass μ h]

theorem MassMap.id : MassMap (fun μ : Measure X => μ) := ⟨fun _ _ _ _ => rfl, fun _ _ => rfl⟩

theorem MassMap.iterate {Q : Measure X → Measure X} (h : MassMap Q) (n : ℕ) : MassMap (Q^[n]) := by
  induction n with
  | zero => exact MassMap.id
  | succ n ih => rw [Function.iterate_succ]; exact ih.comp h

/-- One random step is such a transformation. -/
theorem stepLaw_massMap {Ω : Type} [MeasurableSpace Ω] (ν : Measure Ω) [IsProbabilityMeasure ν] (step : Ω → X → X) (hm : Measurable fun p : X × Ω => step p.2 p.1) :
    MassMap (stepLaw ν step) where
  add μ μ' h h' := by rw [stepLaw, Measure.add_prod, Measure.map_add _ _ hm]; rfl
  mass μ h := by rw [stepLaw, Measure.map_apply hm MeasurableSet.univ, Set.preimage_univ, ← Set.univ_prod_univ, Measure.prod_prod, measure_univ (μ := ν), mul_one]

variable {π : Measure X} [IsProbabilityMeasure π]

/-- The iterates of `Q` on `μ` converge to `π` (scaled to the mass of `μ`), uniformly over events. -/
def Good (π : Measure X) (Q : Measure X → Measure X) (μ : Measure X) : Prop :=
  ∀ ε : ℝ, 0 < ε → ∃ N, ∀ n, N ≤ n → ∀ A, MeasurableSet A → |(Q^[n] μ).real A - μ.real Set.univ * π.real A| ≤ ε

/-- If, after finitely many steps, all but an arbitrarily small part of the distribution is good, the distribution is good. -/
theorem good_of_approx {Q : Measure X → Measure X} (hQ : MassMap Q) (μ : Measure X) (hμ : IsFiniteMeasure μ)
    (h : ∀ ε : ℝ, 0 < ε → ∃ (k : ℕ) (μ' ρ : Measure X), IsFiniteMeasure μ' ∧ IsFiniteMeasure ρ ∧ Q^[k] μ = μ' + ρ ∧ Good π Q μ' ∧ ρ.real Set.univ ≤ ε) : Good π Q μ := by
  intro ε hε
  obtain ⟨k, μ', ρ, hf', hfρ, he, hg, hr⟩ := h (ε / 2) (by linarith)
  obtain ⟨N, hN⟩ := hg (ε / 2) (by linarith)
  refine ⟨N + k, fun n hn A hA => ?_⟩
  obtain ⟨m, rfl⟩ : ∃ m, n = m + k := ⟨n - k, by omega⟩
  have h1 := hN m (by omega) A hA
  have hfm := (hQ.iterate m).finite hf'
  have hfr := (hQ.iterate m).finite hfρ
  have e1 : (Q^[m + k] μ).real A = (Q^[m] μ').real A + (Q^[m] ρ).real A := by
    rw [Function.iterate_add_apply, he, (hQ.iterate m).add _ _ hf' hfρ, measureReal_add_apply]
  have e2 : μ.real Set.univ = μ'.real Set.univ + ρ.real Set.univ := by
    rw [← measureReal_add_apply, ← he, Measure.real, Measure.real, (hQ.iterate k).mass μ hμ]
  have h2 : (Q^[m] ρ).real A ≤ ρ.real Set.univ := by
    refine (measureReal_mono (Set.subset_univ A)).trans (le_of_eq ?_)
    rw [Measure.real, Measure.real, (hQ.iterate m).mass ρ hfρ]
  have h3 : 0 ≤ (Q^[m] ρ).real A := measureReal_nonneg
  have h4 : 0 ≤ π.real A := measureReal_nonneg
  have h5 : π.real A ≤ 1 := measureReal_le_one
  have h6 : 0 ≤ ρ.real Set.univ := measureReal_nonneg
  have h7 : 0 ≤ ρ.real Set.univ * π.real A := mul_nonneg h6 h4
  have h8 : ρ.real Set.univ * π.real A ≤ ρ.real Set.univ := mul_le_of_le_one_right h6 h5
  rw [e1, e2, add_mul]
  rw [abs_le] at h1 ⊢
  constructor <;> linarith [h1.1, h1.2]

/-- `Q` acts on densities with respect to `π` as the operator `T`. -/
def DensityOp (π : Measure X) (Q : Measure X → Measure X) (T : Lp ℝ 2 π →L[ℝ] Lp ℝ 2 π) : Prop :=
  ∀ f : Lp ℝ 2 π, 0 ≤ᵐ[π] f → 0 ≤ᵐ[π] T f ∧ Q (π.withDensity fun x => ENNReal.ofReal (f x)) = π.withDensity fun x => ENNReal.ofReal (T f x)

theorem DensityOp.comp {Q R : Measure X → Measure X} {S T : Lp ℝ 2 π →L[ℝ] Lp ℝ 2 π} (hQ : DensityOp π Q S) (hR : DensityOp π R T) :
    DensityOp π (fun μ => Q (R μ)) (S.comp T) := by
  intro f hf
  obtain ⟨h1, h2⟩ := hR f hf
  obtain ⟨h3, h4⟩ := hQ (T f) h1
  exact ⟨h3, by simp only [h2, h4]; rfl⟩

theorem DensityOp.iterate {Q : Measure X → Measure X} {T : Lp ℝ 2 π →L[ℝ] Lp ℝ 2 π} (hQ : DensityOp π Q T) (n : ℕ) : DensityOp π (Q^[n]) (T ^ n) := by
  induction n with
  | zero => intro f hf; exact ⟨hf, rfl⟩
  | succ n ih =>
    rw [Function.iterate_succ, pow_succ]
    exact ih.comp hQ

theorem withDensity_real (f : Lp ℝ 2 π) (hf : 0 ≤ᵐ[π] f) (A : Set X) (hA : MeasurableSet A) :
    (π.withDensity fun x => ENNReal.ofReal (f x)).real A = ∫ x in A, f x ∂π := by
  have hi : Integrable f π := (Lp.memLp f).integrable (by norm_num)
  rw [Measure.real, withDensity_apply _ hA, ← ofReal_integral_eq_lintegral_ofReal hi.integrableOn (ae_restrict_of_ae hf), ENNReal.toReal_ofReal]
  exact setIntegral_nonneg_of_ae_restrict (ae_restrict_of_ae hf)

/-- Distributions with a square-integrable density are good if the powers of the operator converge to the projection on constants. -/
theorem good_L2 {Q : Measure X → Measure X} {T : Lp ℝ 2 π →L[ℝ] Lp ℝ 2 π} (hQ : DensityOp π Q T)
    (hT : ∀ f : Lp ℝ 2 π, Tendsto (fun n => (T ^ n) f) atTop (𝓝 (⟪oneL π, f⟫_ℝ • oneL π))) (f : Lp ℝ 2 π) (hf : 0 ≤ᵐ[π] f) :
    Good π Q (π.withDensity fun x => ENNReal.ofReal (f x)) := by
  intro ε hε
  obtain ⟨N, hN⟩ := Metric.tendsto_atTop.1 (hT f) ε hε
  refine ⟨N, fun n hn A hA => ?_⟩
  obtain ⟨h1, h2⟩ := hQ.iterate n f hf
  have e1 : (Q^[n] (π.withDensity fun x => ENNReal.ofReal (f x))).real A = ⟪(indL A hA : Lp ℝ 2 π), (T ^ n) f⟫_ℝ := by
    rw [h2, withDensity_real _ h1 A hA, inner_indL]
  have e2 : (π.withDensity fun x => ENNReal.ofReal (f x)).real Set.univ * π.real A = ⟪(indL A hA : Lp ℝ 2 π), ⟪oneL π, f⟫_ℝ • oneL π⟫_ℝ := by
    rw [withDensity_real f hf _ MeasurableSet.univ, setIntegral_univ, inner_smul_right, inner_oneL, inner_indL, setIntegral_congr_ae (g := fun _ => (1 : ℝ)) hA]
    · simp
    · filter_upwards [oneL_ae (π := π)] with x hx _ using hx
  rw [e1, e2, ← inner_sub_right]
  refine (abs_real_inner_le_norm _ _).trans ?_
  have h3 := hN n hn
  rw [dist_eq_norm] at h3
  calc _ ≤ 1 * ‖(T ^ n) f - ⟪oneL π, f⟫_ℝ • oneL π‖ := mul_le_mul_of_nonneg_right (norm_indL_le A hA) (norm_nonneg _)
    _ ≤ ε := by rw [one_mul]; exact h3.le

/-- Then every distribution that is absolutely continuous with respect to `π` is good. -/
theorem good_ac {Q : Measure X → Measure X} (hm : MassMap Q) (hg : ∀ f : Lp ℝ 2 π, 0 ≤ᵐ[π] f → Good π Q (π.withDensity fun x => ENNReal.ofReal (f x)))
    (μ : Measure X) (hμ : IsFiniteMeasure μ) (hac : μ ≪ π) : Good π Q μ := by
  refine good_of_approx hm μ hμ fun ε hε => ?_
  set f := μ.rnDeriv π with hf
  have hfm : Measurable f := Measure.measurable_rnDeriv μ π
  have hμf : π.withDensity f = μ := Measure.withDensity_rnDeriv_eq μ π hac
  have hint : ∫⁻ x, f x ∂π ≠ ∞ := (Measure.lintegral_rnDeriv_lt_top μ π).ne
  have hfin : ∀ᵐ x ∂π, f x < ∞ := Measure.rnDeriv_lt_top μ π
  have htend : Tendsto (fun M : ℕ => ∫⁻ x, (f x - min (f x) M) ∂π) atTop (𝓝 (∫⁻ _, 0 ∂π)) := by
    refine tendsto_lintegral_of_dominated_convergence f (fun M => hfm.sub (hfm.min measurable_const)) (fun M => ae_of_all _ fun x => tsub_le_self) hint ?_
    filter_upwards [hfin] with x hx
    obtain ⟨M0, hM0⟩ := ENNReal.exists_nat_gt hx.ne
    refine tendsto_const_nhds.congr' ?_
    filter_upwards [eventually_ge_atTop M0] with M hM
    have : f x ≤ M := hM0.le.trans (by exact_mod_cast hM)
    rw [min_eq_left this, tsub_self]
  rw [lintegral_zero] at htend
  obtain ⟨M, hM⟩ := ((ENNReal.tendsto_nhds_zero.1 htend) (ENNReal.ofReal ε) (ENNReal.ofReal_pos.2 hε)).exists
  have hminm : Measurable fun x => min (f x) (M : ℝ≥0∞) := hfm.min measurable_const
  have hlt : ∀ x, min (f x) (M : ℝ≥0∞) ≠ ∞ := fun x => ne_top_of_le_ne_top (ENNReal.natCast_ne_top M) (min_le_right _ _)
  have hmem : MemLp (fun x => (min (f x) (M : ℝ≥0∞)).toReal) 2 π := by
    refine MemLp.of_bound hminm.ennreal_toReal.aestronglyMeasurable M (ae_of_all _ fun x => ?_)
    rw [Real.norm_eq_abs, abs_of_nonneg ENNReal.toReal_nonneg]
    have := ENNReal.toReal_mono (ENNReal.natCast_ne_top M) (min_le_right (f x) (M : ℝ≥0∞))
    simpa using this
  set g : Lp ℝ 2 π := hmem.toLp _ with hgdef
  have hgae : g =ᵐ[π] fun x => (min (f x) (M : ℝ≥0∞)).toReal := hmem.coeFn_toLp
  have hgnn : 0 ≤ᵐ[π] g := by filter_upwards [hgae] with x hx; rw [hx]; exact ENNReal.toReal_nonneg
  have hgd : (π.withDensity fun x => ENNReal.ofReal (g x)) = π.withDensity fun x => min (f x) (M : ℝ≥0∞) := by
    refine withDensity_congr_ae ?_
    filter_upwards [hgae] with x hx
    rw [hx, ENNReal.ofReal_toReal (hlt x)]
  have hfin1 : IsFiniteMeasure (π.withDensity fun x => min (f x) (M : ℝ≥0∞)) :=
    isFiniteMeasure_withDensity (ne_top_of_le_ne_top hint (lintegral_mono fun x => min_le_left _ _))
  have hρ : ∫⁻ x, (f x - min (f x) M) ∂π ≠ ∞ := ne_top_of_le_ne_top hint (lintegral_mono fun x => tsub_le_self)
  refine ⟨0, π.withDensity fun x => min (f x) (M : ℝ≥0∞), π.withDensity fun x => f x - min (f x) M, hfin1, isFiniteMeasure_withDensity hρ, ?_, hgd ▸ hg g hgnn, ?_⟩
  · have h1 : μ = π.withDensity ((fun x => min (f x) (M : ℝ≥0∞)) + fun x => f x - min (f x) M) := by
      conv_lhs => rw [← hμf]
      congr 1
      funext x
      simp only [Pi.add_apply]
      exact (add_tsub_cancel_of_le (min_le_left _ _)).symm
    rw [← withDensity_add_left hminm, ← h1]
    rfl
  · rw [Measure.real, withDensity_apply _ MeasurableSet.univ, setLIntegral_univ]
    exact ENNReal.toReal_le_of_le_ofReal hε.le hM

/-- A step that, from every position `x`, stays at `x` with probability `r x` and otherwise moves to a position with a density with respect to `π`. -/
def StayOrMove (π : Measure X) (Q : Measure X → Measure X) (r : X → ℝ≥0∞) : Prop :=
  ∀ μ : Measure X, IsFiniteMeasure μ → ∃ κ : Measure X, IsFiniteMeasure κ ∧ κ ≪ π ∧ Q μ = μ.withDensity r + κ

theorem StayOrMove.id : StayOrMove π (fun μ => μ) (fun _ => 1) := fun μ _ => ⟨0, inferInstance, Measure.AbsolutelyContinuous.zero π, by simp⟩

theorem StayOrMove.comp {Q R : Measure X → Measure X} {r s : X → ℝ≥0∞} (hr : Measurable r) (hs : Measurable s) (hr1 : ∀ x, r x ≤ 1)
    (hQm : MassMap Q) (hQac : ∀ μ, IsFiniteMeasure μ → μ ≪ π → Q μ ≪ π) (hR : StayOrMove π R r) (hQ : StayOrMove π Q s) :
    StayOrMove π (fun μ => Q (R μ)) (fun x => r x * s x) := by
  intro μ hμ
  obtain ⟨κ1, hf1, hac1, he1⟩ := hR μ hμ
  have hfw : IsFiniteMeasure (μ.withDensity r) := isFiniteMeasure_withDensity (ne_top_of_le_ne_top (by simp) (lintegral_mono fun x => hr1 x))
  obtain ⟨κ2, hf2, hac2, he2⟩ := hQ _ hfw
  refine ⟨κ2 + Q κ1, ?_, ?_, ?_⟩
  · haveI := hQm.finite hf1; infer_instance
  · intro s hs
    simp [hac2 hs, hQac κ1 hf1 hac1 hs]
  · show Q (R μ) = _
    rw [he1, hQm.add _ _ hfw hf1, he2, ← withDensity_mul _ hr hs, add_assoc]
    rfl

theorem stay_iterate {Q : Measure X → Measure X} {r : X → ℝ≥0∞} (hr : Measurable r) (hr1 : ∀ x, r x ≤ 1) (hQm : MassMap Q)
    (hQac : ∀ μ, IsFiniteMeasure μ → μ ≪ π → Q μ ≪ π) (h : StayOrMove π Q r) (n : ℕ) : StayOrMove π (Q^[n]) (fun x => r x ^ n) := by
  induction n with
  | zero =>
    simp only [pow_zero]
    exact StayOrMove.id
  | succ n ih =>
    have := StayOrMove.comp (hr.pow_const n) hr (fun x => pow_le_one₀ (zero_le) (hr1 x)) hQm hQac ih h
    simp only [← pow_succ] at this
    intro μ hμ
    rw [Function.iterate_succ_apply']
    exact this μ hμ

/-- If moreover it moves with positive probability from every position, every distribution is good as soon as the absolutely continuous ones are. -/
theorem good_all {Q : Measure X → Measure X} {r : X → ℝ≥0∞} (hr : Measurable r) (hr1 : ∀ x, r x < 1) (hQm : MassMap Q)
    (hQac : ∀ μ, IsFiniteMeasure μ → μ ≪ π → Q μ ≪ π) (h : StayOrMove π Q r) (hg : ∀ μ, IsFiniteMeasure μ → μ ≪ π → Good π Q μ)
    (μ : Measure X) (hμ : IsFiniteMeasure μ) : Good π Q μ := by
  refine good_of_approx hQm μ hμ fun ε hε => ?_
  have htend : Tendsto (fun n : ℕ => ∫⁻ x, r x ^ n ∂μ) atTop (𝓝 (∫⁻ _, 0 ∂μ)) := by
    refine tendsto_lintegral_of_dominated_convergence (fun _ => 1) (fun n => hr.pow_const n) (fun n => ae_of_all _ fun x => pow_le_one₀ zero_le (hr1 x).le) (by simp) ?_
    exact ae_of_all _ fun x => ENNReal.tendsto_pow_atTop_nhds_zero_of_lt_one (hr1 x)
  rw [lintegral_zero] at htend
  obtain ⟨n, hn⟩ := ((ENNReal.tendsto_nhds_zero.1 htend) (ENNReal.ofReal ε) (ENNReal.ofReal_pos.2 hε)).exists
  obtain ⟨κ, hf, hac, he⟩ := stay_iterate hr (fun x => (hr1 x).le) hQm hQac h n μ hμ
  have hfw : IsFiniteMeasure (μ.withDensity fun x => r x ^ n) :=
    isFiniteMeasure_withDensity (ne_top_of_le_ne_top (by simp : (∫⁻ _ : X, 1 ∂μ) ≠ ∞) (lintegral_mono fun x => pow_le_one₀ zero_le (hr1 x).le))
  refine ⟨n, κ, μ.withDensity fun x => r x ^ n, hf, hfw, by rw [he, add_comm], hg κ hf hac, ?_⟩
  rw [Measure.real, withDensity_apply _ MeasurableSet.univ, setLIntegral_univ]
  exact ENNReal.toReal_le_of_le_ofReal hε.le hn

end
end FlowMC
