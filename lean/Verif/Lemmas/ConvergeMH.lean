import Verif.Lemmas.Converge
import Mathlib.MeasureTheory.Integral.Prod
import Mathlib.Algebra.Order.Group.Nat
/-
Reversible steps as operators on `L²(π)`, and the two kinds of Metropolis–Hastings steps.  No code of /repo is modelled here.
-/
open MeasureTheory ProbabilityTheory Filter Topology
open scoped InnerProductSpace ENNReal
namespace FlowMC
open Spec
noncomputable section

variable {X : Type} [MeasurableSpace X] {π : Measure X} [IsProbabilityMeasure π]

/-- Joint distribution of old and new position. -/
def pairLaw {Ω : Type} [MeasurableSpace Ω] (π : Measure X) (ν : Measure Ω) (step : Ω → X → X) : Measure (X × X) := (π.prod ν).map (fun p => (p.1, step p.2 p.1))

theorem revPair_of_reversible {Ω : Type} [MeasurableSpace Ω] (ν : Measure Ω) [IsProbabilityMeasure ν] (step : Ω → X → X)
    (hm : Measurable fun p : X × Ω => step p.2 p.1) (hr : Reversible π ν step) : RevPair π (pairLaw π ν step) where
  fst := by
    refine ⟨measurable_fst, ?_⟩
    rw [pairLaw, Measure.map_map measurable_fst (measurable_fst.prodMk hm)]
    show Measure.map Prod.fst (π.prod ν) = π
    rw [Measure.map_fst_prod]; simp
  swap := by
    refine ⟨measurable_swap, ?_⟩
    rw [pairLaw, Measure.map_map measurable_swap (measurable_fst.prodMk hm)]
    exact hr.symm

theorem stepLaw_withDensity {Ω : Type} [MeasurableSpace Ω] (ν : Measure Ω) [IsProbabilityMeasure ν] (step : Ω → X → X)
    (hm : Measurable fun p : X × Ω => step p.2 p.1) (f : X → ℝ≥0∞) (hf : Measurable f) :
    stepLaw ν step (π.withDensity f) = ((pairLaw π ν step).withDensity fun p => f p.1).map Prod.snd := by
  refine Measure.ext_of_lintegral _ fun h hh => ?_
  have hhs : Measurable fun p : X × Ω => h (step p.2 p.1) := hh.comp hm
  have hps : Measurable fun p : X × Ω => (p.1, step p.2 p.1) := measurable_fst.prodMk hm
  rw [stepLaw, prod_withDensity_left hf, lintegral_map hh hm, lintegral_map hh measurable_snd, pairLaw,
    lintegral_withDensity_eq_lintegral_mul _ (by fun_prop) hhs, lintegral_withDensity_eq_lintegral_mul _ (by fun_prop) (by fun_prop),
    lintegral_map (by fun_prop) (by fun_prop)]
  rfl

/-- A transformation of distributions which acts on densities as a self-adjoint contraction fixing constants. -/
structure RevOp (π : Measure X) [IsProbabilityMeasure π] (Q : Measure X → Measure X) (T : Lp ℝ 2 π →L[ℝ] Lp ℝ 2 π) : Prop where
  mass : MassMap Q
  dens : DensityOp π Q T
  ac : ∀ μ, IsFiniteMeasure μ → μ ≪ π → Q μ ≪ π
  symm : ∀ f g, ⟪T f, g⟫_ℝ = ⟪f, T g⟫_ℝ
  norm_le : ∀ f, ‖T f‖ ≤ ‖f‖
  one : T (oneL π) = oneL π

theorem revOp_of_reversible {Ω : Type} [MeasurableSpace Ω] (ν : Measure Ω) [IsProbabilityMeasure ν] (step : Ω → X → X)
    (hm : Measurable fun p : X × Ω => step p.2 p.1) (hr : Reversible π ν step) :
    RevOp π (stepLaw ν step) (revPair_of_reversible ν step hm hr).T where
  mass := stepLaw_massMap ν step hm
  dens f hf := by
    obtain ⟨h1, h2⟩ := (revPair_of_reversible ν step hm hr).density f hf
    refine ⟨h1, ?_⟩
    rw [stepLaw_withDensity ν step hm _ (Lp.stronglyMeasurable f).measurable.ennreal_ofReal]
    exact h2
  ac μ hμ hac := by
    have hi : Invariant π ν step := hr.invariant hm
    have h1 : stepLaw ν step μ ≪ stepLaw ν step π := (hac.prod (Measure.AbsolutelyContinuous.refl ν)).map hm
    rw [show stepLaw ν step π = π from hi] at h1
    exact h1
  symm := (revPair_of_reversible ν step hm hr).symm
  norm_le := (revPair_of_reversible ν step hm hr).norm_le
  one := (revPair_of_reversible ν step hm hr).T_one

theorem RevOp.iterate {Q : Measure X → Measure X} {T : Lp ℝ 2 π →L[ℝ] Lp ℝ 2 π} (h : RevOp π Q T) (n : ℕ) : RevOp π (Q^[n]) (T ^ n) where
  mass := h.mass.iterate n
  dens := h.dens.iterate n
  ac := by
    induction n with
    | zero => exact fun μ _ hac => hac
    | succ n ih => intro μ hμ hac; rw [Function.iterate_succ_apply]; exact ih _ (h.mass.finite hμ) (h.ac μ hμ hac)
  symm := by
    induction n with
    | zero => intro f g; rfl
    | succ n ih =>
      intro f g
      conv_lhs => rw [pow_succ, ContinuousLinearMap.mul_apply, ih, h.symm]
      rw [pow_succ', ContinuousLinearMap.mul_apply]
  norm_le := by
    induction n with
    | zero => intro f; exact le_rfl
    | succ n ih => intro f; rw [pow_succ, ContinuousLinearMap.mul_apply]; exact (ih _).trans (h.norm_le f)
  one := by
    induction n with
    | zero => rfl
    | succ n ih => rw [pow_succ, ContinuousLinearMap.mul_apply, h.one, ih]

theorem RevOp.pow_pos {Q : Measure X → Measure X} {T : Lp ℝ 2 π →L[ℝ] Lp ℝ 2 π} (h : RevOp π Q T) (hp : ∀ f, 0 ≤ ⟪T f, f⟫_ℝ) (n : ℕ) (f : Lp ℝ 2 π) :
    0 ≤ ⟪(T ^ n) f, f⟫_ℝ := by
  have hs : ∀ m f g, ⟪(T ^ m) f, g⟫_ℝ = ⟪f, (T ^ m) g⟫_ℝ := fun m => (h.iterate m).symm
  obtain ⟨m, rfl | rfl⟩ := Nat.even_or_odd' n
  · rw [two_mul, pow_add, ContinuousLinearMap.mul_apply, hs]
    exact real_inner_self_nonneg
  · rw [show 2 * m + 1 = m + (1 + m) by ring, pow_add, pow_add, ContinuousLinearMap.mul_apply, ContinuousLinearMap.mul_apply, hs, pow_one]
    exact hp _

theorem RevOp.pow_fixed {Q : Measure X → Measure X} {T : Lp ℝ 2 π →L[ℝ] Lp ℝ 2 π} (h : RevOp π Q T) (hp : ∀ f, 0 ≤ ⟪T f, f⟫_ℝ) (n : ℕ) (hn : 0 < n) (w : Lp ℝ 2 π)
    (hw : (T ^ n) w = w) : T w = w := by
  obtain ⟨m, rfl⟩ : ∃ m, n = m + 1 := ⟨n - 1, by omega⟩
  have h1 : ‖w‖ ≤ ‖T w‖ := by
    conv_lhs => rw [← hw, pow_succ, ContinuousLinearMap.mul_apply]
    exact (h.iterate m).norm_le _
  have h2 := pos_contraction T h.symm hp h.norm_le w
  have h3 : ‖w‖ ^ 2 ≤ ‖T w‖ ^ 2 := pow_le_pow_left₀ (norm_nonneg _) h1 2
  have h4 : ‖w - T w‖ = 0 := by
    have : ‖w - T w‖ ^ 2 ≤ 0 := by linarith
    exact pow_eq_zero_iff two_ne_zero |>.1 (le_antisymm this (by positivity))
  exact (sub_eq_zero.1 (norm_eq_zero.1 h4)).symm

theorem coe_pow_eq_iterate {E : Type} [NormedAddCommGroup E] [NormedSpace ℝ E] (T : E →L[ℝ] E) (n : ℕ) (x : E) : (T ^ n) x = T^[n] x := by
  induction n generalizing x with
  | zero => rfl
  | succ n ih => rw [pow_succ, ContinuousLinearMap.mul_apply, ih, Function.iterate_succ_apply]

/-- Powers of the operator of a chain that can move from anywhere to anywhere. -/
theorem powers_tendsto {Q : Measure X → Measure X} {J : Measure (X × X)} (hJ : RevPair π J) (h : RevOp π Q hJ.T) (hac : π.prod π ≪ J) (f : Lp ℝ 2 π) :
    Tendsto (fun n => (hJ.T ^ n) f) atTop (𝓝 (⟪oneL π, f⟫_ℝ • oneL π)) := by
  set T := hJ.T with hT
  have h2 := h.iterate 2
  have key := product_powers (ContinuousLinearMap.id ℝ (Lp ℝ 2 π)) (T ^ 2) (fun _ _ => rfl) (fun _ => le_rfl) h2.symm
    (fun x => by rw [pow_two, ContinuousLinearMap.mul_apply, h.symm]; exact real_inner_self_nonneg) h2.norm_le (oneL π) norm_oneL rfl h2.one
    (fun w hw => hJ.fixed_sq hac w (by rw [pow_two, ContinuousLinearMap.mul_apply] at hw; exact hw)) f
  have heven : Tendsto (fun n => (T ^ (2 * n)) f) atTop (𝓝 (⟪oneL π, f⟫_ℝ • oneL π)) := by
    refine key.congr fun n => ?_
    rw [pow_mul, coe_pow_eq_iterate]
    rfl
  have hodd : Tendsto (fun n => (T ^ (2 * n + 1)) f) atTop (𝓝 (⟪oneL π, f⟫_ℝ • oneL π)) := by
    have h3 := (T.continuous.tendsto _).comp heven
    rw [map_smul, h.one] at h3
    refine h3.congr fun n => ?_
    rw [pow_succ']; rfl
  rw [Metric.tendsto_atTop] at heven hodd ⊢
  intro ε hε
  obtain ⟨N1, h1⟩ := heven ε hε
  obtain ⟨N2, h2⟩ := hodd ε hε
  refine ⟨2 * (N1 + N2) + 1, fun n hn => ?_⟩
  obtain ⟨m, rfl | rfl⟩ := Nat.even_or_odd' n
  · exact h1 m (by omega)
  · exact h2 m (by omega)

/-- Alternating any reversible steps with steps of a positive kind that can move from anywhere to anywhere. -/
theorem cycle_tendsto {Q R : Measure X → Measure X} {A : Lp ℝ 2 π →L[ℝ] Lp ℝ 2 π} {J : Measure (X × X)} (hA : RevOp π Q A) (hJ : RevPair π J) (h : RevOp π R hJ.T)
    (hp : ∀ f, 0 ≤ ⟪hJ.T f, f⟫_ℝ) (hac : π.prod π ≪ J) (n : ℕ) (hn : 0 < n) (f : Lp ℝ 2 π) :
    Tendsto (fun k => (((hJ.T ^ n).comp A) ^ k) f) atTop (𝓝 (⟪oneL π, f⟫_ℝ • oneL π)) := by
  have hB := h.iterate n
  have key := product_powers A (hJ.T ^ n) hA.symm hA.norm_le hB.symm (h.pow_pos hp n) hB.norm_le (oneL π) norm_oneL hA.one hB.one
    (fun w hw => hJ.fixed_const hac w (h.pow_fixed hp n hn w hw)) f
  refine key.congr fun k => ?_
  rw [coe_pow_eq_iterate]
  rfl

/-! ### Metropolis–Hastings steps -/

section MH
variable {N : Type} [MeasurableSpace N] {ν₀ : Measure N} [IsProbabilityMeasure ν₀] {g : X × N → X} {acc : (X × N) × ℝ → Prop} [DecidablePred acc] {α : X × N → ℝ≥0∞}

/-- Propose `g (x, ξ)`; accept or stay. -/
def mhStep (g : X × N → X) (acc : (X × N) × ℝ → Prop) [DecidablePred acc] (ω : N × ℝ) (x : X) : X := if acc ((x, ω.1), ω.2) then g (x, ω.1) else x

theorem mhStep_measurable (hg : Measurable g) (hacc : MeasurableSet {q | acc q}) : Measurable fun p : X × (N × ℝ) => mhStep g acc p.2 p.1 := by
  unfold mhStep
  refine Measurable.ite ?_ (by fun_prop) measurable_fst
  exact (by fun_prop : Measurable fun p : X × (N × ℝ) => ((p.1, p.2.1), p.2.2)) hacc

/-- Probability of a rejection. -/
def mhReject (ν₀ : Measure N) (acc : (X × N) × ℝ → Prop) (x : X) : ℝ≥0∞ := ∫⁻ n, unif {u | ¬ acc ((x, n), u)} ∂ν₀

theorem mh_split (μ : Measure X) [SFinite μ] (hg : Measurable g) (hacc : MeasurableSet {q | acc q}) (hα : Measurable α) (hprob : ∀ z, unif {u | acc (z, u)} = α z) :
    pairLaw μ (ν₀.prod unif) (mhStep g acc) = ((μ.prod ν₀).withDensity α).map (fun z => (z.1, g z)) + (μ.withDensity (mhReject ν₀ acc)).map (fun x => (x, x)) := by
  have hstep := mhStep_measurable hg hacc
  have hrej : Measurable fun z : X × N => unif {u | ¬ acc (z, u)} := measurable_measure_prodMk_left hacc.compl
  refine Measure.ext_of_lintegral _ fun h hh => ?_
  rw [pairLaw, lintegral_map hh (measurable_fst.prodMk hstep), lintegral_add_measure, lintegral_map hh (by fun_prop), lintegral_map hh (by fun_prop),
    lintegral_withDensity_eq_lintegral_mul _ hα (by fun_prop), lintegral_withDensity_eq_lintegral_mul _ (by unfold mhReject; exact hrej.lintegral_prod_right') (by fun_prop)]
  have e0 : ∫⁻ x, ((mhReject ν₀ acc) * fun x => h (x, x)) x ∂μ = ∫⁻ z, unif {u | ¬ acc (z, u)} * h (z.1, z.1) ∂(μ.prod ν₀) := by
    rw [lintegral_prod _ (by fun_prop)]
    refine lintegral_congr fun x => ?_
    exact (lintegral_mul_const (h (x, x)) (f := fun n => unif {u | ¬ acc ((x, n), u)}) (hrej.comp measurable_prodMk_left)).symm
  rw [e0, ← Measure.prodAssoc_prod, lintegral_map (by fun_prop) (by fun_prop), lintegral_prod]
  swap
  · refine Measurable.aemeasurable ?_
    exact (by fun_prop : Measurable fun p : X × (N × ℝ) => h (p.1, mhStep g acc p.2 p.1)).comp (MeasurableEquiv.measurable _)
  rw [← lintegral_add_left (by fun_prop)]
  refine lintegral_congr fun z => ?_
  have hz : MeasurableSet {u | acc (z, u)} := (by fun_prop : Measurable fun u : ℝ => (z, u)) hacc
  simp only [MeasurableEquiv.prodAssoc, MeasurableEquiv.coe_mk, Equiv.prodAssoc_apply, mhStep, Prod.mk.eta]
  rw [← lintegral_add_compl _ hz, setLIntegral_congr_fun (g := fun _ => h (z.1, g z)) hz, setLIntegral_congr_fun (g := fun _ => h (z.1, z.1)) hz.compl]
  · simp only [lintegral_const, MeasurableSet.univ, Measure.restrict_apply, Set.univ_inter, hprob, Pi.mul_apply]
    rw [mul_comm (α z), mul_comm (unif _)]
    rfl
  · intro u hu
    have : ¬ acc (z, u) := hu
    simp [this]
  · intro u hu
    have : acc (z, u) := hu
    simp [this]

theorem mhReject_measurable (hacc : MeasurableSet {q | acc q}) : Measurable (mhReject ν₀ acc) := by
  have hrej : Measurable fun z : X × N => unif {u | ¬ acc (z, u)} := measurable_measure_prodMk_left hacc.compl
  unfold mhReject; exact hrej.lintegral_prod_right'

theorem mhReject_add (hacc : MeasurableSet {q | acc q}) (hα : Measurable α) (hprob : ∀ z, unif {u | acc (z, u)} = α z) (x : X) :
    ∫⁻ n, α (x, n) ∂ν₀ + mhReject ν₀ acc x = 1 := by
  have hrej : Measurable fun z : X × N => unif {u | ¬ acc (z, u)} := measurable_measure_prodMk_left hacc.compl
  rw [mhReject, ← lintegral_add_left (by fun_prop)]
  have : ∀ n, α (x, n) + unif {u | ¬ acc ((x, n), u)} = 1 := by
    intro n
    have hz : MeasurableSet {u | acc ((x, n), u)} := (by fun_prop : Measurable fun u : ℝ => ((x, n), u)) hacc
    rw [← hprob, show {u | ¬ acc ((x, n), u)} = {u | acc ((x, n), u)}ᶜ from rfl, measure_add_measure_compl hz, measure_univ]
  simp [this]

theorem mhReject_le (hacc : MeasurableSet {q | acc q}) (hα : Measurable α) (hprob : ∀ z, unif {u | acc (z, u)} = α z) (x : X) : mhReject ν₀ acc x ≤ 1 := by
  rw [← mhReject_add (ν₀ := ν₀) hacc hα hprob x]; exact le_add_self

theorem mhReject_lt (hacc : MeasurableSet {q | acc q}) (hα : Measurable α) (hprob : ∀ z, unif {u | acc (z, u)} = α z) (x : X) (hx : ∫⁻ n, α (x, n) ∂ν₀ ≠ 0) :
    mhReject ν₀ acc x < 1 := by
  have h := mhReject_add (ν₀ := ν₀) hacc hα hprob x
  have h1 : mhReject ν₀ acc x ≠ ∞ := ne_top_of_le_ne_top ENNReal.one_ne_top (mhReject_le (ν₀ := ν₀) hacc hα hprob x)
  rw [← h, add_comm]
  exact ENNReal.lt_add_right h1 hx

/-- From every position it stays, or moves to somewhere with a density, if every proposal that can be accepted has a density. -/
theorem mh_stayOrMove (hg : Measurable g) (hacc : MeasurableSet {q | acc q}) (hα : Measurable α) (hprob : ∀ z, unif {u | acc (z, u)} = α z)
    (hprop : ∀ x, ((ν₀.withDensity fun n => α (x, n)).map fun n => g (x, n)) ≪ π) : StayOrMove π (stepLaw (ν₀.prod unif) (mhStep g acc)) (mhReject ν₀ acc) := by
  intro μ hμ
  have hstep := mhStep_measurable (X := X) hg hacc
  have hα1 : ∀ z, α z ≤ 1 := fun z => by rw [← hprob]; exact prob_le_one
  have hfin : IsFiniteMeasure ((μ.prod ν₀).withDensity α) :=
    isFiniteMeasure_withDensity (ne_top_of_le_ne_top (by simp : (∫⁻ _ : X × N, 1 ∂(μ.prod ν₀)) ≠ ∞) (lintegral_mono fun z => hα1 z))
  refine ⟨((μ.prod ν₀).withDensity α).map g, inferInstance, ?_, ?_⟩
  · refine Measure.AbsolutelyContinuous.mk fun s hs hs0 => ?_
    rw [Measure.map_apply hg hs, withDensity_apply _ (hg hs), ← lintegral_indicator (hg hs), lintegral_prod _ (by exact (hα.indicator (hg hs)).aemeasurable)]
    have : ∀ x, ∫⁻ n, (g ⁻¹' s).indicator α (x, n) ∂ν₀ = 0 := by
      intro x
      have h1 := hprop x hs0
      have hgx : Measurable fun n => g (x, n) := by fun_prop
      rw [Measure.map_apply hgx hs, withDensity_apply _ (hgx hs), ← lintegral_indicator (hgx hs)] at h1
      rw [← h1]
      rfl
    simp [this]
  · have h := congrArg (Measure.map Prod.snd) (mh_split (ν₀ := ν₀) μ hg hacc hα hprob)
    rw [pairLaw, Measure.map_map measurable_snd (measurable_fst.prodMk hstep), Measure.map_add _ _ measurable_snd, Measure.map_map measurable_snd (by fun_prop),
      Measure.map_map measurable_snd (by fun_prop)] at h
    rw [add_comm]
    refine Eq.trans h ?_
    congr 1
    have : (Prod.snd ∘ fun x : X => (x, x)) = id := rfl
    rw [this, Measure.map_id]

/-- It can move from anywhere to anywhere, if the proposals that can be accepted charge everything the target charges. -/
theorem mh_pairs (hg : Measurable g) (hacc : MeasurableSet {q | acc q}) (hα : Measurable α) (hprob : ∀ z, unif {u | acc (z, u)} = α z)
    (hprop : ∀ᵐ x ∂π, π ≪ ((ν₀.withDensity fun n => α (x, n)).map fun n => g (x, n))) : π.prod π ≪ pairLaw π (ν₀.prod unif) (mhStep g acc) := by
  refine Measure.AbsolutelyContinuous.mk fun s hs hs0 => ?_
  rw [mh_split (ν₀ := ν₀) π hg hacc hα hprob, Measure.add_apply, add_eq_zero] at hs0
  have h0 := hs0.1
  have hm : Measurable fun z : X × N => (z.1, g z) := by fun_prop
  rw [Measure.map_apply hm hs, withDensity_apply _ (hm hs), ← lintegral_indicator (hm hs), lintegral_prod _ (by exact (hα.indicator (hm hs)).aemeasurable),
    lintegral_eq_zero_iff (by exact (hα.indicator (hm hs)).lintegral_prod_right')] at h0
  rw [Measure.measure_prod_null hs]
  filter_upwards [h0, hprop] with x hx hpx
  have hsx : MeasurableSet (Prod.mk x ⁻¹' s) := measurable_prodMk_left hs
  refine hpx ?_
  have hgx : Measurable fun n => g (x, n) := by fun_prop
  rw [Measure.map_apply hgx hsx, withDensity_apply _ (hgx hsx), ← lintegral_indicator (hgx hsx)]
  exact hx

/-- One kind of step, from every start. -/
theorem mh_good (hg : Measurable g) (hacc : MeasurableSet {q | acc q}) (hα : Measurable α) (hprob : ∀ z, unif {u | acc (z, u)} = α z)
    (hrev : Reversible π (ν₀.prod unif) (mhStep g acc)) (h1 : ∀ x, ((ν₀.withDensity fun n => α (x, n)).map fun n => g (x, n)) ≪ π)
    (h2 : ∀ x, π ≪ ((ν₀.withDensity fun n => α (x, n)).map fun n => g (x, n))) (μ : Measure X) (hμ : IsFiniteMeasure μ) :
    Good π (stepLaw (ν₀.prod unif) (mhStep g acc)) μ := by
  have hm := mhStep_measurable (X := X) hg hacc
  have hop := revOp_of_reversible (ν₀.prod unif) _ hm hrev
  have hpow := powers_tendsto _ hop (mh_pairs hg hacc hα hprob (ae_of_all _ h2))
  refine good_all (mhReject_measurable (ν₀ := ν₀) hacc) (fun x => mhReject_lt hacc hα hprob x fun h0 => ?_) hop.mass hop.ac (mh_stayOrMove hg hacc hα hprob h1)
    (good_ac hop.mass fun f hf => good_L2 hop.dens hpow f hf) μ hμ
  have hgx : Measurable fun n => g (x, n) := by fun_prop
  have : π Set.univ = 0 := h2 x (by
    rw [Measure.map_apply hgx MeasurableSet.univ, Set.preimage_univ, withDensity_apply _ MeasurableSet.univ, setLIntegral_univ, h0])
  simp at this

/-- Alternating any reversible kind of step (which may stay or move) with a positive one. -/
theorem cycle_good {Q : Measure X → Measure X} {A : Lp ℝ 2 π →L[ℝ] Lp ℝ 2 π} (hA : RevOp π Q A) (hg : Measurable g) (hacc : MeasurableSet {q | acc q}) (hα : Measurable α)
    (hprob : ∀ z, unif {u | acc (z, u)} = α z) (hrev : Reversible π (ν₀.prod unif) (mhStep g acc))
    (hp : ∀ f, 0 ≤ ⟪(revPair_of_reversible (ν₀.prod unif) _ (mhStep_measurable hg hacc) hrev).T f, f⟫_ℝ)
    (h2 : ∀ x, π ≪ ((ν₀.withDensity fun n => α (x, n)).map fun n => g (x, n))) (n : ℕ) (hn : 0 < n) (μ : Measure X) (hμ : IsFiniteMeasure μ) (hac : μ ≪ π) :
    Good π (fun μ => (stepLaw (ν₀.prod unif) (mhStep g acc))^[n] (Q μ)) μ := by
  have hm := mhStep_measurable (X := X) hg hacc
  have hop := revOp_of_reversible (ν₀.prod unif) _ hm hrev
  have hpow := cycle_tendsto hA _ hop hp (mh_pairs hg hacc hα hprob (ae_of_all _ h2)) n hn
  exact good_ac ((hop.iterate n).mass.comp hA.mass) (fun f hf => good_L2 ((hop.iterate n).dens.comp hA.dens) hpow f hf) μ hμ hac

theorem cycle_good_all {Q : Measure X → Measure X} {A : Lp ℝ 2 π →L[ℝ] Lp ℝ 2 π} (hA : RevOp π Q A) (r : X → ℝ≥0∞) (hr : Measurable r) (hr1 : ∀ x, r x ≤ 1) (hQ : StayOrMove π Q r)
    (hg : Measurable g) (hacc : MeasurableSet {q | acc q}) (hα : Measurable α)
    (hprob : ∀ z, unif {u | acc (z, u)} = α z) (hrev : Reversible π (ν₀.prod unif) (mhStep g acc))
    (hp : ∀ f, 0 ≤ ⟪(revPair_of_reversible (ν₀.prod unif) _ (mhStep_measurable hg hacc) hrev).T f, f⟫_ℝ)
    (h1 : ∀ x, ((ν₀.withDensity fun n => α (x, n)).map fun n => g (x, n)) ≪ π)
    (h2 : ∀ x, π ≪ ((ν₀.withDensity fun n => α (x, n)).map fun n => g (x, n))) (n : ℕ) (hn : 0 < n) (μ : Measure X) (hμ : IsFiniteMeasure μ) :
    Good π (fun μ => (stepLaw (ν₀.prod unif) (mhStep g acc))^[n] (Q μ)) μ := by
  have hm := mhStep_measurable (X := X) hg hacc
  have hop := revOp_of_reversible (ν₀.prod unif) _ hm hrev
  have hlt : ∀ x, mhReject ν₀ acc x < 1 := fun x => mhReject_lt hacc hα hprob x fun h0 => by
    have hgx : Measurable fun n => g (x, n) := by fun_prop
    have : π Set.univ = 0 := h2 x (by
      rw [Measure.map_apply hgx MeasurableSet.univ, Set.preimage_univ, withDensity_apply _ MeasurableSet.univ, setLIntegral_univ, h0])
    simp at this
  have hst := stay_iterate (mhReject_measurable (ν₀ := ν₀) hacc) (fun x => (hlt x).le) hop.mass hop.ac (mh_stayOrMove hg hacc hα hprob h1) n
  have hsm := StayOrMove.comp hr ((mhReject_measurable (ν₀ := ν₀) hacc).pow_const n) hr1 (hop.iterate n).mass (hop.iterate n).ac hQ hst
  refine good_all (hr.mul ((mhReject_measurable (ν₀ := ν₀) hacc).pow_const n)) (fun x => ?_) ((hop.iterate n).mass.comp hA.mass)
    (fun μ hμ hac => (hop.iterate n).ac _ (hA.mass.finite hμ) (hA.ac μ hμ hac)) hsm (cycle_good hA hg hacc hα hprob hrev hp h2 n hn) μ hμ
  calc r x * mhReject ν₀ acc x ^ n ≤ 1 * mhReject ν₀ acc x ^ n := by gcongr; exact hr1 x
    _ < 1 := by rw [one_mul]; exact pow_lt_one₀ zero_le (hlt x) hn.ne'

end MH

/-! ### independent proposals -/

/-- `min (w x, w y)` is a positive kernel: it is `∫ 1[t < w x] 1[t < w y] dt`. -/
theorem min_kernel_nonneg (q : Measure X) [IsProbabilityMeasure q] (w : X → ℝ) (hw : Measurable w) (f : X → ℝ) (hf : Measurable f) :
    0 ≤ ∫ p, f p.2 * f p.1 ∂((q.prod q).withDensity fun z => ENNReal.ofReal (min (w z.1) (w z.2))) := by
  by_cases hint : Integrable (fun p : X × X => f p.2 * f p.1) ((q.prod q).withDensity fun z => ENNReal.ofReal (min (w z.1) (w z.2)))
  swap
  · rw [integral_undef hint]
  set lam : Measure ℝ := volume.restrict (Set.Ioi 0) with hlam
  set E : Set (ℝ × (X × X)) := {p | p.1 < w p.2.1 ∧ p.1 < w p.2.2} with hE
  have hEm : MeasurableSet E := (measurableSet_lt measurable_fst (by fun_prop)).inter (measurableSet_lt measurable_fst (by fun_prop))
  have hK : ((lam.prod (q.prod q)).restrict E).map Prod.snd = (q.prod q).withDensity fun z => ENNReal.ofReal (min (w z.1) (w z.2)) := by
    refine Measure.ext_of_lintegral _ fun h hh => ?_
    rw [lintegral_map hh measurable_snd, ← lintegral_indicator hEm, lintegral_prod_symm' (E.indicator fun p : ℝ × (X × X) => h p.2) ((hh.comp measurable_snd).indicator hEm),
      lintegral_withDensity_eq_lintegral_mul _ (by fun_prop) hh]
    refine lintegral_congr fun z => ?_
    have e1 : ∀ t, E.indicator (fun p : ℝ × (X × X) => h p.2) (t, z) = (Set.Iio (min (w z.1) (w z.2))).indicator (fun _ => h z) t := by
      intro t
      simp only [Set.indicator, hE, Set.mem_setOf_eq, Set.mem_Iio, lt_min_iff]
    simp only [e1, lintegral_indicator measurableSet_Iio, lintegral_const, Pi.mul_apply]
    rw [mul_comm, hlam, Measure.restrict_restrict measurableSet_Iio, Measure.restrict_apply MeasurableSet.univ, Set.univ_inter, Set.inter_comm, Set.Ioi_inter_Iio, Real.volume_Ioo, sub_zero]
  have hm2 : Measurable fun p : X × X => f p.2 * f p.1 := by fun_prop
  rw [← hK] at hint ⊢
  rw [integral_map (by fun_prop) hm2.aestronglyMeasurable, ← integral_indicator hEm]
  have hint2 : Integrable (E.indicator fun p : ℝ × (X × X) => f p.2.2 * f p.2.1) (lam.prod (q.prod q)) := by
    rw [integrable_indicator_iff hEm]
    exact hint.comp_measurable measurable_snd
  rw [integral_prod _ hint2]
  refine integral_nonneg fun t => ?_
  have e2 : ∀ z : X × X, E.indicator (fun p : ℝ × (X × X) => f p.2.2 * f p.2.1) (t, z) = {x | t < w x}.indicator f z.1 * {x | t < w x}.indicator f z.2 := by
    intro z
    by_cases a : t < w z.1 <;> by_cases b : t < w z.2 <;> simp [Set.indicator, hE, a, b, mul_comm]
  show 0 ≤ ∫ z, E.indicator (fun p : ℝ × (X × X) => f p.2.2 * f p.2.1) (t, z) ∂(q.prod q)
  simp only [e2]
  rw [integral_prod_mul]
  exact mul_self_nonneg _

/-- Independent proposals give a positive operator: the accepted flow is `c · min (w x, w y) q(dx) q(dy)`, a mixture of product measures. -/
theorem independence_positive {q : Measure X} [IsProbabilityMeasure q] {acc : (X × X) × ℝ → Prop} [DecidablePred acc] {α : X × X → ℝ≥0∞}
    (hacc : MeasurableSet {q | acc q}) (hα : Measurable α) (hprob : ∀ z, unif {u | acc (z, u)} = α z)
    (hrev : Reversible π (q.prod unif) (mhStep (fun z : X × X => z.2) acc)) (w : X → ℝ) (hw : Measurable w) (c : ℝ≥0∞)
    (hflow : (π.prod q).withDensity α = c • (q.prod q).withDensity (fun z => ENNReal.ofReal (min (w z.1) (w z.2)))) (f : Lp ℝ 2 π) :
    0 ≤ ⟪(revPair_of_reversible (q.prod unif) _ (mhStep_measurable measurable_snd hacc) hrev).T f, f⟫_ℝ := by
  set hJ := revPair_of_reversible (q.prod unif) _ (mhStep_measurable measurable_snd hacc) hrev with hJdef
  rw [hJ.inner_T_integral]
  have hfm : Measurable f := (Lp.stronglyMeasurable f).measurable
  have hsplit := mh_split (ν₀ := q) π measurable_snd hacc hα hprob
  have hid : (fun z : X × X => (z.1, z.2)) = id := rfl
  rw [hid, Measure.map_id, hflow] at hsplit
  have hint : Integrable (fun p : X × X => f p.2 * f p.1) (pairLaw π (q.prod unif) (mhStep (fun z : X × X => z.2) acc)) := by
    have a1 : MemLp (fun p : X × X => f p.2) 2 (pairLaw π (q.prod unif) (mhStep (fun z : X × X => z.2) acc)) := (Lp.memLp f).comp_measurePreserving hJ.snd
    have a2 : MemLp (fun p : X × X => f p.1) 2 (pairLaw π (q.prod unif) (mhStep (fun z : X × X => z.2) acc)) := (Lp.memLp f).comp_measurePreserving hJ.fst
    exact a1.integrable_mul a2
  rw [hsplit] at hint ⊢
  rw [integrable_add_measure] at hint
  rw [integral_add_measure hint.1 hint.2]
  refine add_nonneg ?_ ?_
  · rw [integral_smul_measure]
    refine smul_nonneg ENNReal.toReal_nonneg ?_
    exact min_kernel_nonneg q w hw f hfm
  · rw [integral_map (by fun_prop) (by fun_prop)]
    exact integral_nonneg fun x => mul_self_nonneg _

end
end FlowMC
