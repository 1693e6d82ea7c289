import Verif.Props.Unbounded
import Verif.Props.WallAverages
/-
C102: what an inexact log-density costs.
-/
open MeasureTheory ProbabilityTheory Filter
open scoped ENNReal Topology
set_option linter.unusedSectionVars false
namespace FlowMC
open Spec

section
variable {X : Type} [MeasurableSpace X] {π π' : Measure X} [IsProbabilityMeasure π] [IsProbabilityMeasure π'] {K : ℝ}

theorem real_of_le_smul (hK : 0 ≤ K) (h : π' ≤ ENNReal.ofReal K • π) (A : Set X) : π'.real A ≤ K * π.real A := by
  have := h A
  rw [Measure.smul_apply, smul_eq_mul] at this
  have h2 := ENNReal.toReal_mono (ENNReal.mul_ne_top ENNReal.ofReal_ne_top (measure_ne_top π A)) this
  rwa [ENNReal.toReal_mul, ENNReal.toReal_ofReal hK] at h2

/-- Two distributions, each at most `K` times the other: probabilities. -/
theorem near_of_le (hK : 1 ≤ K) (h : π' ≤ ENNReal.ofReal K • π) (h' : π ≤ ENNReal.ofReal K • π') (A : Set X) : |π'.real A - π.real A| ≤ 1 - 1 / K := by
  have hp : 0 < K := by linarith
  have h1 := real_of_le_smul hp.le h A
  have h2 := real_of_le_smul hp.le h' A
  have u1 := measureReal_le_one (μ := π) (s := A)
  have u2 := measureReal_le_one (μ := π') (s := A)
  have e : K * (1 - 1 / K) = K - 1 := by field_simp
  rw [abs_le]
  constructor
  · by_contra hc
    push Not at hc
    nlinarith [mul_lt_mul_of_pos_left hc hp]
  · by_contra hc
    push Not at hc
    nlinarith [mul_lt_mul_of_pos_left hc hp]

/-- Two distributions, each at most `K` times the other: means. -/
theorem mean_of_le (hK : 1 ≤ K) (h : π' ≤ ENNReal.ofReal K • π) (h' : π ≤ ENNReal.ofReal K • π') {f : X → ℝ} (hf : Integrable f π) :
    Integrable f π' ∧ |∫ x, f x ∂π' - ∫ x, f x ∂π| ≤ (K - 1) * ∫ x, |f x| ∂π := by
  have hp : 0 < K := by linarith
  have int : ∀ {g : X → ℝ}, Integrable g π → Integrable g π' := fun hg => (hg.smul_measure ENNReal.ofReal_ne_top).mono_measure h
  have pos : ∀ {g : X → ℝ}, Integrable g π → (∀ x, 0 ≤ g x) → |∫ x, g x ∂π' - ∫ x, g x ∂π| ≤ (K - 1) * ∫ x, g x ∂π := by
    intro g hg h0
    have a1 : ∫ x, g x ∂π' ≤ K * ∫ x, g x ∂π := by
      have := integral_mono_measure h (ae_of_all _ h0) (hg.smul_measure ENNReal.ofReal_ne_top)
      rwa [integral_smul_measure, ENNReal.toReal_ofReal hp.le, smul_eq_mul] at this
    have a2 : ∫ x, g x ∂π ≤ K * ∫ x, g x ∂π' := by
      have := integral_mono_measure h' (ae_of_all _ h0) ((int hg).smul_measure ENNReal.ofReal_ne_top)
      rwa [integral_smul_measure, ENNReal.toReal_ofReal hp.le, smul_eq_mul] at this
    have n1 : 0 ≤ ∫ x, g x ∂π := integral_nonneg h0
    have n2 : 0 ≤ ∫ x, g x ∂π' := integral_nonneg h0
    rw [abs_le]
    constructor <;> nlinarith [mul_nonneg (sub_nonneg.2 hK) (sub_nonneg.2 hK)]
  refine ⟨int hf, ?_⟩
  have p1 := hf.pos_part
  have p2 := hf.neg_part
  have e : ∀ (μ : Measure X), Integrable f μ → ∫ x, f x ∂μ = ∫ x, max (f x) 0 ∂μ - ∫ x, max (-f x) 0 ∂μ := fun μ hμ => by
    rw [← integral_sub hμ.pos_part hμ.neg_part]
    refine integral_congr_ae (ae_of_all _ fun x => ?_)
    rcases le_total 0 (f x) with h | h <;> simp [h]
  have e' : ∫ x, |f x| ∂π = ∫ x, max (f x) 0 ∂π + ∫ x, max (-f x) 0 ∂π := by
    rw [← integral_add p1 p2]
    refine integral_congr_ae (ae_of_all _ fun x => ?_)
    rcases le_total 0 (f x) with h | h <;> simp [h, abs_of_nonneg, abs_of_nonpos]
  have b1 := pos p1 (fun x => le_max_right _ _)
  have b2 := pos p2 (fun x => le_max_right _ _)
  rw [e π hf, e π' (int hf), e', mul_add]
  rw [abs_le] at *
  constructor <;> linarith

theorem mean_shift {a : ℝ} (hK : 1 ≤ K) (h : π' ≤ ENNReal.ofReal K • π) (h' : π ≤ ENNReal.ofReal K • π') {f : X → ℝ} (hf : Integrable f π) :
    Integrable f π' ∧ |∫ x, f x ∂π' - ∫ x, f x ∂π| ≤ (K - 1) * ∫ x, |f x - a| ∂π := by
  obtain ⟨h1, h2⟩ := mean_of_le hK h h' (hf.sub (integrable_const a))
  have hf' := (mean_of_le hK h h' hf).1
  refine ⟨hf', ?_⟩
  simp only [Pi.sub_apply] at h2
  rw [integral_sub hf' (integrable_const a), integral_sub hf (integrable_const a)] at h2
  simpa using h2
end

theorem near_prod_right {X N : Type} [MeasurableSpace X] [MeasurableSpace N] {μ π : Measure X} [IsProbabilityMeasure μ] [IsProbabilityMeasure π] {ε : ℝ} (h : Near μ π ε) (ν : Measure N) [IsProbabilityMeasure ν] :
    Near (ν.prod μ) (ν.prod π) ε := by
  have := near_map (near_prod h ν) measurable_swap
  rwa [Measure.prod_swap, Measure.prod_swap] at this

theorem fresh_near {Ω A : Type} {past : MeasurableSpace Ω} [mΩ : MeasurableSpace Ω] {P : Measure Ω} [IsProbabilityMeasure P] [MeasurableSpace A] (hle : past ≤ mΩ) {Y : Ω → A} (hY : Measurable Y) {π π' : Measure A}
    [IsProbabilityMeasure π] [IsProbabilityMeasure π'] {ε τ : ℝ} (h : FreshInLaw past P Y π' ε) (hn : Near π' π τ) : FreshInLaw past P Y π (ε + τ) := by
  have hid : Measurable (toPast past) := (toPast_measurable past).mono hle le_rfl
  haveI : IsProbabilityMeasure (P.map (toPast past)) := Measure.isProbabilityMeasure_map hid.aemeasurable
  rw [fresh_iff_near hle hY] at h ⊢
  exact near_trans h (near_prod_right hn _)

variable {d : ℕ} {S : Set (Fin d → ℝ)} {lp lp' : (Fin d → ℝ) → ℝ}

theorem wallMeasure_le (hS : MeasurableSet S) (hlp : Measurable lp) {u : ℝ} (h : ∀ x ∈ S, lp' x ≤ lp x + u) : wallMeasure S lp' ≤ ENNReal.ofReal (Real.exp u) • wallMeasure S lp := by
  unfold wallMeasure
  rw [← withDensity_smul _ (by fun_prop)]
  refine withDensity_mono ((ae_restrict_iff' hS).2 (ae_of_all _ fun x hx => ?_))
  rw [Pi.smul_apply, smul_eq_mul, ← ENNReal.ofReal_mul (Real.exp_pos _).le, ← Real.exp_add]
  exact ENNReal.ofReal_le_ofReal (Real.exp_le_exp.2 (by linarith [h x hx]))

theorem normalised_le {X : Type} [MeasurableSpace X] {m m' : Measure X} {a b : ℝ} (h0 : m Set.univ ≠ 0) (hfin : m Set.univ ≠ ∞) (h : m' ≤ ENNReal.ofReal (Real.exp a) • m) (h' : m ≤ ENNReal.ofReal (Real.exp b) • m') :
    normalised m' ≤ ENNReal.ofReal (Real.exp (a + b)) • normalised m := by
  have hb : m Set.univ ≤ ENNReal.ofReal (Real.exp b) * m' Set.univ := h' Set.univ
  have h1 : m' Set.univ ≠ 0 := fun e => by rw [e, mul_zero] at hb; exact h0 (le_antisymm hb zero_le)
  have h2 : m' Set.univ ≠ ∞ := ne_top_of_le_ne_top (ENNReal.mul_ne_top ENNReal.ofReal_ne_top hfin) (h Set.univ)
  refine Measure.le_iff.2 fun A _ => ?_
  have ha := h A
  simp only [normalised, Measure.smul_apply, smul_eq_mul] at *
  have hinv : (m' Set.univ)⁻¹ ≤ ENNReal.ofReal (Real.exp b) * (m Set.univ)⁻¹ := by
    rw [← div_eq_mul_inv, ENNReal.le_div_iff_mul_le (.inl h0) (.inl hfin), mul_comm, ← div_eq_mul_inv]
    exact ENNReal.div_le_of_le_mul hb
  calc (m' Set.univ)⁻¹ * m' A ≤ ENNReal.ofReal (Real.exp b) * (m Set.univ)⁻¹ * (ENNReal.ofReal (Real.exp a) * m A) := mul_le_mul' hinv ha
    _ = ENNReal.ofReal (Real.exp (a + b)) * ((m Set.univ)⁻¹ * m A) := by rw [Real.exp_add, ENNReal.ofReal_mul (Real.exp_pos _).le]; ring

/-- Log-densities that differ by at most `δ`, up to a constant. -/
theorem inexact_le (hS : MeasurableSet S) (hlp : Measurable lp) (hlp' : Measurable lp') (h0 : wallMeasure S lp' Set.univ ≠ 0) (hfin : wallMeasure S lp' Set.univ ≠ ∞) {r δ : ℝ} (hδ : ∀ x ∈ S, |lp' x - lp x - r| ≤ δ) :
    wallMeasure S lp Set.univ ≠ 0 ∧ wallMeasure S lp Set.univ ≠ ∞ ∧ normalised (wallMeasure S lp') ≤ ENNReal.ofReal (Real.exp (2 * δ)) • normalised (wallMeasure S lp) ∧
      normalised (wallMeasure S lp) ≤ ENNReal.ofReal (Real.exp (2 * δ)) • normalised (wallMeasure S lp') := by
  have a1 : wallMeasure S lp' ≤ ENNReal.ofReal (Real.exp (r + δ)) • wallMeasure S lp := wallMeasure_le hS hlp fun x hx => by linarith [(abs_le.1 (hδ x hx)).2]
  have a2 : wallMeasure S lp ≤ ENNReal.ofReal (Real.exp (δ - r)) • wallMeasure S lp' := wallMeasure_le hS hlp' fun x hx => by linarith [(abs_le.1 (hδ x hx)).1]
  have z0 : wallMeasure S lp Set.univ ≠ 0 := fun e => h0 (le_antisymm (by simpa [e] using a1 Set.univ) zero_le)
  have zf : wallMeasure S lp Set.univ ≠ ∞ := ne_top_of_le_ne_top (ENNReal.mul_ne_top ENNReal.ofReal_ne_top hfin) (a2 Set.univ)
  have e1 := normalised_le z0 zf a1 a2
  have e2 := normalised_le h0 hfin a2 a1
  rw [show r + δ + (δ - r) = 2 * δ by ring] at e1
  rw [show δ - r + (r + δ) = 2 * δ by ring] at e2
  exact ⟨z0, zf, e1, e2⟩

theorem wall_univ (lp : (Fin d → ℝ) → ℝ) : wallMeasure Set.univ lp = targetMeasure lp := by rw [wallMeasure, targetMeasure, Measure.restrict_univ]


/-- **C102 (the size of the bias).** Let the log-density that the code is given, `lp'`, differ inside the region `S` from the log-density one would like to sample, `lp`, by at most `δ`, up to a constant `r` — because of
rounding in its computation, of an emulator, of an integral computed numerically.  Then it defines a probability distribution, all probabilities under it are within `1 - exp(-2δ)` of those under the correct one, and every
function that has a mean under the correct one has a mean under it, off by at most `exp(2δ) - 1` times the mean absolute deviation of the function. -/
theorem C102_bias (S : Set (Fin d → ℝ)) (hS : MeasurableSet S) (lp lp' : (Fin d → ℝ) → ℝ) (hlp : Measurable lp) (hlp' : Measurable lp') (h0 : wallMeasure S lp Set.univ ≠ 0) (hfin : wallMeasure S lp Set.univ ≠ ∞)
    (r δ : ℝ) (h0δ : 0 ≤ δ) (hδ : ∀ x ∈ S, |lp' x - lp x - r| ≤ δ) :
    (wallMeasure S lp' Set.univ ≠ 0 ∧ wallMeasure S lp' Set.univ ≠ ∞) ∧
    (∀ A, |(normalised (wallMeasure S lp')).real A - (normalised (wallMeasure S lp)).real A| ≤ 1 - Real.exp (-(2 * δ))) ∧
    ∀ f : (Fin d → ℝ) → ℝ, Integrable f (normalised (wallMeasure S lp)) → Integrable f (normalised (wallMeasure S lp')) ∧
      |∫ x, f x ∂(normalised (wallMeasure S lp')) - ∫ x, f x ∂(normalised (wallMeasure S lp))| ≤
        (Real.exp (2 * δ) - 1) * ∫ x, |f x - ∫ y, f y ∂(normalised (wallMeasure S lp))| ∂(normalised (wallMeasure S lp)) := by
  obtain ⟨z0, zf, e1, e2⟩ := inexact_le (r := -r) hS hlp' hlp h0 hfin (δ := δ) fun x hx => by
    rw [show lp x - lp' x - -r = -(lp' x - lp x - r) by ring, abs_neg]; exact hδ x hx
  haveI := wall_isProb h0 hfin
  haveI := wall_isProb z0 zf
  have hK : 1 ≤ Real.exp (2 * δ) := Real.one_le_exp (by linarith)
  refine ⟨⟨z0, zf⟩, fun A => ?_, fun f hf => mean_shift hK e2 e1 hf⟩
  rw [Real.exp_neg, ← one_div]
  exact near_of_le hK e2 e1 A

section
variable {Ω D M O V Z : Type}
variable {g : (Fin d → ℝ) → Fin d → ℝ} {data : Data D}
variable {past : MeasurableSpace Ω} {sig : Key → MeasurableSpace Ω} [mΩ : MeasurableSpace Ω] {P : Measure Ω} [IsProbabilityMeasure P] {env : Ω → Env ℝ D d M O} {env' : Ω → Env XR D d M O} {T : Key → Prop}
  [MeasurableSpace M] [MeasurableSpace O] [MeasurableSpace Z] {ν : Measure Z} {push : M → Z → Pos ℝ d} {lnf : M → Pos ℝ d → ℝ} {G : Set M} [BufNum ℝ] [BufNum XR]

omit [BufNum XR] in
/-- **C102 (rows).** A call of `sample` with the MALA bundle whose `logpdf` is off by at most `δ` from a log-density `lp`, up to a constant, everything else as in C83 (the flow is trained on the chains' own history).
Late production rows have, up to `1 - exp(-2δ)` and an error `ε` that dies out, the distribution proportional to `exp lp`, given all that happened before production. -/
theorem C102_rows (h : IdealDraws past sig P env) (c : BundleCfg ℝ D d M O) (hn : 0 < c.nChains) (hb : 0 < c.batchSize) (hfin : ∀ x : ℝ, BufNum.isFinite x = true) (data : Data D)
    (hB : AdaptiveBundle (fun _ => True) P sig env c data ν push lnf G) (hT : OrdinaryTraining sig env G) (hflow : c.flow ∈ G) (key : Key) (init : Ω → InitPos ℝ d)
    (hx : ∀ ω, (init ω).atleast2d.length = c.nChains) (hX : ∀ i < c.nChains, ∃ X : Ω → Pos ℝ d, Measurable[past] X ∧ ∀ ω, (init ω).atleast2d[i]? = some (X ω))
    (lp : Pos ℝ d → ℝ) (hlp : Measurable lp) (r δ : ℝ) (hδ : ∀ x, |c.logpdf.val x data - lp x - r| ≤ δ) (ε : ℝ) (hε : 0 < ε) :
    ∃ N, ∀ (n nd nc : ℕ) (kw : List (String × V)) (s : Sampler ℝ D d M O V), Sampler.new nd nc key none none none (some (malaBundle (c.withProd n))) kw = .ok s →
      ∃ s' : Ω → Sampler ℝ D d M O V, (∀ ω, s.sample (env ω) (init ω) data = (.ok (), s' ω)) ∧
        ∀ i < c.nChains, ∀ j < (c.withProd n).nProdSteps, N ≤ j → ∃ Y : Ω → Pos ℝ d, Measurable Y ∧
          CloseInLaw P Y (normalised (targetMeasure lp)) (ε + (1 - Real.exp (-(2 * δ)))) ∧
          FreshInLaw (before past sig (trainedKey c.nTrainLoops c.nEpochs key)) P Y (normalised (targetMeasure lp)) (ε + (1 - Real.exp (-(2 * δ)))) ∧
          ∀ ω, ∃ b, (s' ω).heap.res "positions_production" = some (.buffer b) ∧ ∀ a : Fin d, b.data.get [i, j, a] = Y ω a := by
  have h0δ : 0 ≤ δ := (abs_nonneg _).trans (hδ 0)
  obtain ⟨z0, zf, e1, e2⟩ := inexact_le (S := Set.univ) MeasurableSet.univ hlp hB.meas (by rw [wall_univ]; exact targetMeasure_ne_zero _ hB.meas) (by rw [wall_univ]; exact hB.finite) (fun x _ => hδ x)
  have near := (C102_bias Set.univ MeasurableSet.univ lp _ hlp hB.meas z0 zf r δ h0δ fun x _ => hδ x).2.1
  simp only [wall_univ] at near
  obtain ⟨N, hN⟩ := C83_adaptive (V := V) h c hn hb hfin data hB hT hflow key init hx hX ε hε
  refine ⟨N, fun n nd nc kw s hs => ?_⟩
  obtain ⟨s', h1, h2⟩ := hN n nd nc kw s hs
  refine ⟨s', h1, fun i hi j hj hNj => ?_⟩
  obtain ⟨Y, hY, hc, hf, hbuf⟩ := h2 i hi j hj hNj
  haveI := normalised_isProb lp hlp (by rw [← wall_univ]; exact zf)
  haveI := normalised_isProb _ hB.meas hB.finite
  exact ⟨Y, hY, fun A hA => (abs_sub_le _ _ _).trans (add_le_add (hc A hA) (near A)), fresh_near ((idealOn_before h (trainedKey c.nTrainLoops c.nEpochs key) (fun _ _ => trivial)).past_le) hY hf fun A _ => near A, hbuf⟩

omit [BufNum XR] in
/-- **C102 (posterior means).** A call of `sample` with the MALA bundle whose `logpdf` is off by at most `δ` from a log-density `lp`, up to a constant, everything else as in C96.  For every function `f` that has a mean
under the distribution proportional to `exp lp` and every tolerance and confidence: from some number of production loops on, with that confidence, the average of `f` over the production rows of every chain misses that
mean by at most the tolerance plus `exp(2δ) - 1` times the mean absolute deviation of `f`. -/
theorem C102_means (h : IdealDraws past sig P env) (c : BundleCfg ℝ D d M O) (hn : 0 < c.nChains) (hb : 0 < c.batchSize) (hfin : ∀ x : ℝ, BufNum.isFinite x = true) (data : Data D)
    (hB : AdaptiveBundle (fun _ => True) P sig env c data ν push lnf G) (hT : OrdinaryTraining sig env G) (hflow : c.flow ∈ G) (key : Key) (init : Ω → InitPos ℝ d)
    (hx : ∀ ω, (init ω).atleast2d.length = c.nChains) (hX : ∀ i < c.nChains, ∃ X : Ω → Pos ℝ d, Measurable[past] X ∧ ∀ ω, (init ω).atleast2d[i]? = some (X ω))
    (lp : Pos ℝ d → ℝ) (hlp : Measurable lp) (r δ : ℝ) (hδ : ∀ x, |c.logpdf.val x data - lp x - r| ≤ δ)
    (f : Pos ℝ d → ℝ) (hf : Measurable f) (hint : Integrable f (normalised (targetMeasure lp))) (τ ε : ℝ) (hτ : 0 < τ) (hε : 0 < ε) :
    ∃ L, ∀ (n : ℕ), L ≤ n → ∀ (nd nc : ℕ) (kw : List (String × V)) (s : Sampler ℝ D d M O V), Sampler.new nd nc key none none none (some (malaBundle (c.withProd n))) kw = .ok s →
      ∃ (s' : Ω → Sampler ℝ D d M O V) (b : Ω → Buffer ℝ), (∀ ω, s.sample (env ω) (init ω) data = (.ok (), s' ω)) ∧ (∀ ω, (s' ω).heap.res "positions_production" = some (.buffer (b ω))) ∧
        P.real {ω | ∃ i < c.nChains, τ + (Real.exp (2 * δ) - 1) * ∫ x, |f x - ∫ y, f y ∂(normalised (targetMeasure lp))| ∂(normalised (targetMeasure lp)) <
          |chainMean f (b ω) i (c.withProd n).nProdSteps - ∫ x, f x ∂(normalised (targetMeasure lp))|} ≤ ε := by
  have h0δ : 0 ≤ δ := (abs_nonneg _).trans (hδ 0)
  obtain ⟨z0, zf, e1, e2⟩ := inexact_le (S := Set.univ) MeasurableSet.univ hlp hB.meas (by rw [wall_univ]; exact targetMeasure_ne_zero _ hB.meas) (by rw [wall_univ]; exact hB.finite) (fun x _ => hδ x)
  have near := (C102_bias Set.univ MeasurableSet.univ lp _ hlp hB.meas z0 zf r δ h0δ fun x _ => hδ x).2.2 f (by rw [wall_univ]; exact hint)
  simp only [wall_univ] at near
  obtain ⟨L, hL⟩ := C96_adaptive (V := V) h c hn hb hfin data hB hT hflow key init hx hX f hf near.1 τ ε hτ hε
  refine ⟨L, fun n hLn nd nc kw s hs => ?_⟩
  obtain ⟨s', b, h1, h2, h3⟩ := hL n hLn nd nc kw s hs
  refine ⟨s', b, h1, h2, (measureReal_mono ?_ (measure_ne_top _ _)).trans h3⟩
  rintro ω ⟨i, hi, hlt⟩
  refine ⟨i, hi, ?_⟩
  have := abs_sub_le (chainMean f (b ω) i (c.withProd n).nProdSteps) (∫ x, f x ∂(normalised (targetMeasure fun x => c.logpdf.val x data))) (∫ x, f x ∂(normalised (targetMeasure lp)))
  linarith [near.2]

omit [BufNum ℝ] in
/-- **C102 (hard boundaries).** The same on a target with hard boundaries, everything else as in C100: inside the region, the finite values `lp'` of the `logpdf` that the code is given are off by at most `δ` from a
log-density `lp`, up to a constant. -/
theorem C102_walls {lp' : (Fin d → ℝ) → ℝ} (h : IdealDraws past sig P env) (c : BundleCfg XR D d M O) (hn : 0 < c.nChains) (hb : 0 < c.batchSize) (hfin : ∀ x : ℝ, BufNum.isFinite (XR.fin x) = true) (data : Data D)
    (hB : AdaptiveWallBundle (fun _ => True) P sig env env' S lp' g c data ν push lnf G) (hT : OrdinaryTraining sig env' G) (hflow : c.flow ∈ G) (key : Key) (init : Ω → InitPos XR d)
    (hx : ∀ ω, (init ω).atleast2d.length = c.nChains) (hX : ∀ i < c.nChains, ∃ X : Ω → Fin d → ℝ, Measurable[past] X ∧ ∀ ω, (init ω).atleast2d[i]? = some (emb (X ω)) ∧ X ω ∈ S)
    (lp : Pos ℝ d → ℝ) (hlp : Measurable lp) (r δ : ℝ) (hδ : ∀ x ∈ S, |lp' x - lp x - r| ≤ δ)
    (f : Pos ℝ d → ℝ) (hf : Measurable f) (hint : Integrable f (normalised (wallMeasure S lp))) (τ ε : ℝ) (hτ : 0 < τ) (hε : 0 < ε) :
    ∃ L, ∀ (n : ℕ), L ≤ n → ∀ (nd nc : ℕ) (kw : List (String × V)) (s : Sampler XR D d M O V), Sampler.new nd nc key none none none (some (malaBundle (c.withProd n))) kw = .ok s →
      ∃ (s' : Ω → Sampler XR D d M O V) (b : Ω → Buffer XR), (∀ ω, s.sample (env' ω) (init ω) data = (.ok (), s' ω)) ∧ (∀ ω, (s' ω).heap.res "positions_production" = some (.buffer (b ω))) ∧
        (∀ ω, RowsInside S (b ω) c.nChains (c.withProd n).nProdSteps) ∧
        P.real {ω | ∃ i < c.nChains, τ + (Real.exp (2 * δ) - 1) * ∫ x, |f x - ∫ y, f y ∂(normalised (wallMeasure S lp))| ∂(normalised (wallMeasure S lp)) <
          |wallMean f (b ω) i (c.withProd n).nProdSteps - ∫ x, f x ∂(normalised (wallMeasure S lp))|} ≤ ε := by
  obtain ⟨z0, zf, e1, e2⟩ := inexact_le hB.walled.meas hlp hB.walled.meas_lp hB.nonzero hB.finite hδ
  obtain ⟨y0, hy0⟩ : S.Nonempty := by
    rcases S.eq_empty_or_nonempty with e | e
    · exact absurd (by simp [wallMeasure, e]) z0
    · exact e
  have h0δ : 0 ≤ δ := (abs_nonneg _).trans (hδ y0 hy0)
  have near := (C102_bias S hB.walled.meas lp _ hlp hB.walled.meas_lp z0 zf r δ h0δ hδ).2.2 f hint
  obtain ⟨L, hL⟩ := C100_adaptive (V := V) h c hn hb hfin data hB hT hflow key init hx hX f hf near.1 τ ε hτ hε
  refine ⟨L, fun n hLn nd nc kw s hs => ?_⟩
  obtain ⟨s', b, h1, h2, h2', h3⟩ := hL n hLn nd nc kw s hs
  refine ⟨s', b, h1, h2, h2', (measureReal_mono ?_ (measure_ne_top _ _)).trans h3⟩
  rintro ω ⟨i, hi, hlt⟩
  refine ⟨i, hi, ?_⟩
  have := abs_sub_le (wallMean f (b ω) i (c.withProd n).nProdSteps) (∫ x, f x ∂(normalised (wallMeasure S lp'))) (∫ x, f x ∂(normalised (wallMeasure S lp)))
  linarith [near.2]

end
end FlowMC
