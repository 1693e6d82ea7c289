import Verif.Lemmas.Uniform
import Verif.Spec.Intervals
import Verif.Props.Unbounded
import Verif.Props.WallAverages
/-
C103: intervals and quantiles read off the production rows.
-/
open MeasureTheory ProbabilityTheory Filter
open scoped ENNReal Topology
set_option linter.unusedSectionVars false
namespace FlowMC
open Spec

section
variable {d : ℕ}

/-- The distribution of `g` at a row drawn at random from the first `n`. -/
noncomputable def rowLaw (g : (Fin d → ℝ) → ℝ) (rows : ℕ → Fin d → ℝ) (n : ℕ) : Measure ℝ := (n : ℝ≥0∞)⁻¹ • ∑ j ∈ Finset.range n, Measure.dirac (g (rows j))

theorem rowLaw_prob (g : (Fin d → ℝ) → ℝ) (rows : ℕ → Fin d → ℝ) {n : ℕ} (hn : 0 < n) : IsProbabilityMeasure (rowLaw g rows n) := by
  refine ⟨?_⟩
  rw [rowLaw, Measure.smul_apply, Measure.finset_sum_apply]
  simp only [measure_univ, Finset.sum_const, Finset.card_range, nsmul_eq_mul, mul_one, smul_eq_mul]
  exact ENNReal.inv_mul_cancel (by exact_mod_cast hn.ne') (ENNReal.natCast_ne_top n)

open Classical in
theorem rowLaw_real (g : (Fin d → ℝ) → ℝ) (rows : ℕ → Fin d → ℝ) (n : ℕ) {A : Set ℝ} (hA : MeasurableSet A) :
    (rowLaw g rows n).real A = (∑ j ∈ Finset.range n, if g (rows j) ∈ A then (1 : ℝ) else 0) / n := by
  rw [rowLaw, measureReal_def, Measure.smul_apply, Measure.finset_sum_apply, smul_eq_mul, ENNReal.toReal_mul, ENNReal.toReal_inv, ENNReal.toReal_natCast, ENNReal.toReal_sum fun j _ => measure_ne_top _ _, div_eq_inv_mul]
  congr 1
  refine Finset.sum_congr rfl fun j _ => ?_
  rw [Measure.dirac_apply' _ hA]
  by_cases h : g (rows j) ∈ A <;> simp [h]

/-- Points between extended numbers. -/
def between (a b : EReal) : Set ℝ := {y | a ≤ (y : EReal) ∧ (y : EReal) ≤ b}

theorem between_measurable (a b : EReal) : MeasurableSet (between a b) :=
  (measurableSet_le measurable_const measurable_coe_real_ereal).inter (measurableSet_le measurable_coe_real_ereal measurable_const)

open Classical in
theorem fraction_eq (g : (Fin d → ℝ) → ℝ) (rows : ℕ → Fin d → ℝ) (n : ℕ) (a b : EReal) : fractionIn g rows n a b = (rowLaw g rows n).real (between a b) := by
  rw [rowLaw_real g rows n (between_measurable a b), fractionIn]
  congr 1
  rw [Finset.card_filter, Nat.cast_sum]
  refine Finset.sum_congr rfl fun j _ => ?_
  simp only [between, Set.mem_setOf_eq]
  split <;> simp

theorem between_close (ρ η : Measure ℝ) [IsProbabilityMeasure ρ] [IsProbabilityMeasure η] {ε : ℝ} (h : ∀ t, |η.real (Set.Iic t) - ρ.real (Set.Iic t)| ≤ ε ∧ |η.real (Set.Iio t) - ρ.real (Set.Iio t)| ≤ ε) (a b : EReal) :
    |η.real (between a b) - ρ.real (between a b)| ≤ 2 * ε := by
  have h0 : 0 ≤ ε := (abs_nonneg _).trans (h 0).1
  have hemp : between a b = ∅ → |η.real (between a b) - ρ.real (between a b)| ≤ 2 * ε := fun e => by rw [e]; simp [h0]
  induction a with
  | top => exact hemp (by ext y; simp [between])
  | bot =>
    induction b with
    | bot => exact hemp (by ext y; simp [between])
    | top =>
      have : between ⊥ ⊤ = Set.univ := by ext y; simp [between]
      rw [this]; simp [h0]
    | coe b =>
      have : between ⊥ (b : EReal) = Set.Iic b := by ext y; simp [between]
      rw [this]; exact (h b).1.trans (by linarith)
  | coe a =>
    induction b with
    | bot => exact hemp (by ext y; simp [between])
    | top =>
      have : between (a : EReal) ⊤ = (Set.Iio a)ᶜ := by ext y; simp [between]
      rw [this, probReal_compl_eq_one_sub measurableSet_Iio, probReal_compl_eq_one_sub measurableSet_Iio]
      rw [show (1 - η.real (Set.Iio a) - (1 - ρ.real (Set.Iio a))) = -(η.real (Set.Iio a) - ρ.real (Set.Iio a)) by ring, abs_neg]
      exact (h a).2.trans (by linarith)
    | coe b =>
      have : between (a : EReal) b = Set.Icc a b := by ext y; simp [between]
      rw [this]; exact interval_of_half ρ η h a b

open Classical in
/-- From averages of finitely many indicators to all intervals. -/
theorem intervals_of_finite (π : Measure (Fin d → ℝ)) [IsProbabilityMeasure π] (g : (Fin d → ℝ) → ℝ) (hg : Measurable g) (δ : ℝ) (hδ : 0 < δ) : ∃ F : Finset (ℝ × Bool), ∀ (rows : ℕ → Fin d → ℝ) (n : ℕ), 0 < n →
    (∀ p ∈ F, |(∑ j ∈ Finset.range n, (fun x => if (if p.2 then g x ≤ p.1 else g x < p.1) then (1 : ℝ) else 0) (rows j)) / n - ∫ x, (if (if p.2 then g x ≤ p.1 else g x < p.1) then (1 : ℝ) else 0) ∂π| ≤ δ / 4) →
    IntervalsCorrect π g rows n δ := by
  haveI : IsProbabilityMeasure (π.map g) := Measure.isProbabilityMeasure_map hg.aemeasurable
  obtain ⟨T, hT⟩ := uniform_of_finite (π.map g) (δ / 4) (by linarith)
  refine ⟨T ×ˢ Finset.univ, fun rows n hn h a b => ?_⟩
  haveI := rowLaw_prob g rows hn
  have key : ∀ t ∈ T, |(rowLaw g rows n).real (Set.Iic t) - (π.map g).real (Set.Iic t)| ≤ δ / 4 ∧ |(rowLaw g rows n).real (Set.Iio t) - (π.map g).real (Set.Iio t)| ≤ δ / 4 := by
    intro t ht
    have h1 := h (t, true) (by simp [ht])
    have h2 := h (t, false) (by simp [ht])
    simp only [if_true, Bool.false_eq_true, if_false] at h1 h2
    rw [rowLaw_real _ _ _ measurableSet_Iic, rowLaw_real _ _ _ measurableSet_Iio, map_measureReal_apply hg measurableSet_Iic, map_measureReal_apply hg measurableSet_Iio]
    have i1 : ∫ x, (if g x ≤ t then (1 : ℝ) else 0) ∂π = π.real (g ⁻¹' Set.Iic t) := by
      rw [← integral_indicator_one (hg measurableSet_Iic)]; rfl
    have i2 : ∫ x, (if g x < t then (1 : ℝ) else 0) ∂π = π.real (g ⁻¹' Set.Iio t) := by
      rw [← integral_indicator_one (hg measurableSet_Iio)]; rfl
    rw [i1] at h1
    rw [i2] at h2
    exact ⟨h1, h2⟩
  have := between_close (π.map g) (rowLaw g rows n) (hT _ key) a b
  rw [← fraction_eq, map_measureReal_apply hg (between_measurable a b)] at this
  refine le_trans ?_ (this.trans (by linarith))
  exact le_rfl

open Classical in
theorem indicator_measurable (g : (Fin d → ℝ) → ℝ) (hg : Measurable g) (p : ℝ × Bool) : Measurable fun x => if (if p.2 then g x ≤ p.1 else g x < p.1) then (1 : ℝ) else 0 := by
  refine Measurable.ite ?_ measurable_const measurable_const
  rcases p with ⟨t, b⟩
  cases b
  · exact measurableSet_lt hg measurable_const
  · exact measurableSet_le hg measurable_const

theorem nProdSteps_pos {F D M O : Type} {c : BundleCfg F D d M O} (hc : GoodCfg c) {n : ℕ} (hn : 0 < n) : 0 < (c.withProd n).nProdSteps := by
  have h := Nat.div_pos (Nat.le_of_dvd hc.nLocal hc.localDvd) hc.localThin
  have : 0 < c.nLocal / c.localThin * n := Nat.mul_pos h hn
  simp only [BundleCfg.nProdSteps, BundleCfg.withProd]
  omega

open Classical in
theorem intervals_event {Ω : Type} [MeasurableSpace Ω] (P : Measure Ω) [IsProbabilityMeasure P] (π : Measure (Fin d → ℝ)) (g : (Fin d → ℝ) → ℝ) {δ ε : ℝ} (hε : 0 < ε) (F : Finset (ℝ × Bool)) (rows : Ω → ℕ → ℕ → Fin d → ℝ) (n C : ℕ)
    (hF : ∀ r : ℕ → Fin d → ℝ, (∀ p ∈ F, |(∑ j ∈ Finset.range n, (fun x => if (if p.2 then g x ≤ p.1 else g x < p.1) then (1 : ℝ) else 0) (r j)) / n -
      ∫ x, (if (if p.2 then g x ≤ p.1 else g x < p.1) then (1 : ℝ) else 0) ∂π| ≤ δ / 4) → IntervalsCorrect π g r n δ)
    (h : ∀ p ∈ F, P.real {ω | ∃ i < C, δ / 4 < |(∑ j ∈ Finset.range n, (fun x => if (if p.2 then g x ≤ p.1 else g x < p.1) then (1 : ℝ) else 0) (rows ω i j)) / n -
      ∫ x, (if (if p.2 then g x ≤ p.1 else g x < p.1) then (1 : ℝ) else 0) ∂π|} ≤ ε / (F.card + 1)) :
    P.real {ω | ∃ i < C, ¬ IntervalsCorrect π g (rows ω i) n δ} ≤ ε := by
  calc _ ≤ P.real (⋃ p ∈ F, {ω | ∃ i < C, δ / 4 < |(∑ j ∈ Finset.range n, (fun x => if (if p.2 then g x ≤ p.1 else g x < p.1) then (1 : ℝ) else 0) (rows ω i j)) / n -
        ∫ x, (if (if p.2 then g x ≤ p.1 else g x < p.1) then (1 : ℝ) else 0) ∂π|}) := by
        refine measureReal_mono ?_ (measure_ne_top _ _)
        rintro ω ⟨i, hi, hn⟩
        by_contra hc
        refine hn (hF _ fun p hp => ?_)
        by_contra hlt
        push Not at hlt
        exact hc (Set.mem_biUnion hp ⟨i, hi, hlt⟩)
    _ ≤ ∑ p ∈ F, P.real {ω | ∃ i < C, δ / 4 < |(∑ j ∈ Finset.range n, (fun x => if (if p.2 then g x ≤ p.1 else g x < p.1) then (1 : ℝ) else 0) (rows ω i j)) / n -
        ∫ x, (if (if p.2 then g x ≤ p.1 else g x < p.1) then (1 : ℝ) else 0) ∂π|} := measureReal_biUnion_finset_le _ _
    _ ≤ ∑ p ∈ F, ε / (F.card + 1) := Finset.sum_le_sum h
    _ = F.card * (ε / (F.card + 1)) := by rw [Finset.sum_const, nsmul_eq_mul]
    _ ≤ ε := by rw [mul_div_assoc', div_le_iff₀ (by positivity)]; nlinarith

/-- **C103 (what it means for credible intervals and quantiles).** Let all intervals contain the right fraction of the rows of a chain, up to `δ`.  Then an interval that contains a fraction `p` of the rows or more — however
it was computed from the rows — has probability at least `p - δ`, and if it contains at most a fraction `p`, at most `p + δ`; and every sample quantile `q` of order `p` (a fraction `p` or more of the rows is at or below `q`
and a fraction `1 - p` or more at or above) is a quantile of the distribution up to `δ`. -/
theorem C103_credible (π : Measure (Fin d → ℝ)) (g : (Fin d → ℝ) → ℝ) (rows : ℕ → Fin d → ℝ) (n : ℕ) (δ : ℝ) (h : IntervalsCorrect π g rows n δ) (p : ℝ) :
    (∀ a b : EReal, p ≤ fractionIn g rows n a b → p - δ ≤ π.real {x | a ≤ (g x : EReal) ∧ (g x : EReal) ≤ b}) ∧
    (∀ a b : EReal, fractionIn g rows n a b ≤ p → π.real {x | a ≤ (g x : EReal) ∧ (g x : EReal) ≤ b} ≤ p + δ) ∧
    (∀ q : ℝ, p ≤ fractionIn g rows n ⊥ q → 1 - p ≤ fractionIn g rows n q ⊤ → p - δ ≤ π.real {x | g x ≤ q} ∧ 1 - p - δ ≤ π.real {x | q ≤ g x}) := by
  refine ⟨fun a b hp => by linarith [(abs_le.1 (h a b)).2], fun a b hp => by linarith [(abs_le.1 (h a b)).1], fun q h1 h2 => ⟨?_, ?_⟩⟩
  · have := (abs_le.1 (h ⊥ q)).2
    simp only [bot_le, true_and, EReal.coe_le_coe_iff] at this
    linarith
  · have := (abs_le.1 (h q ⊤)).2
    simp only [le_top, and_true, EReal.coe_le_coe_iff] at this
    linarith

section
variable {Ω D M O V Z : Type} {S : Set (Fin d → ℝ)} {lp : (Fin d → ℝ) → ℝ} {grad : (Fin d → ℝ) → Fin d → ℝ}
variable {past : MeasurableSpace Ω} {sig : Key → MeasurableSpace Ω} [mΩ : MeasurableSpace Ω] {P : Measure Ω} [IsProbabilityMeasure P] {env : Ω → Env ℝ D d M O} {env' : Ω → Env XR D d M O} {T : Key → Prop}
  [MeasurableSpace M] [MeasurableSpace O] [MeasurableSpace Z] {ν : Measure Z} {push : M → Z → Pos ℝ d} {lnf : M → Pos ℝ d → ℝ} {G : Set M} [BufNum ℝ] [BufNum XR]

omit [BufNum XR] in
/-- **C103.** A call of `sample` with the MALA bundle, in an ideal random world, with the flow trained on the chains' own history, as in C96.  For every measurable quantity `g` computed from the parameters and all
`δ, ε > 0` there is a number of production loops from which on the call returns and, with probability at least `1 - ε`, in every chain *all* intervals contain, up to `δ`, the fraction of production rows that is their
probability under the target. -/
theorem C103_adaptive (h : IdealDraws past sig P env) (c : BundleCfg ℝ D d M O) (hn : 0 < c.nChains) (hb : 0 < c.batchSize) (hfin : ∀ x : ℝ, BufNum.isFinite x = true) (data : Data D)
    (hB : AdaptiveBundle (fun _ => True) P sig env c data ν push lnf G) (hT : OrdinaryTraining sig env G) (hflow : c.flow ∈ G) (key : Key) (init : Ω → InitPos ℝ d)
    (hx : ∀ ω, (init ω).atleast2d.length = c.nChains) (hX : ∀ i < c.nChains, ∃ X : Ω → Pos ℝ d, Measurable[past] X ∧ ∀ ω, (init ω).atleast2d[i]? = some (X ω))
    (g : Pos ℝ d → ℝ) (hg : Measurable g) (δ ε : ℝ) (hδ : 0 < δ) (hε : 0 < ε) :
    ∃ L, ∀ (n : ℕ), L ≤ n → ∀ (nd nc : ℕ) (kw : List (String × V)) (s : Sampler ℝ D d M O V), Sampler.new nd nc key none none none (some (malaBundle (c.withProd n))) kw = .ok s →
      ∃ (s' : Ω → Sampler ℝ D d M O V) (b : Ω → Buffer ℝ), (∀ ω, s.sample (env ω) (init ω) data = (.ok (), s' ω)) ∧ (∀ ω, (s' ω).heap.res "positions_production" = some (.buffer (b ω))) ∧
        P.real {ω | ∃ i < c.nChains, ¬ IntervalsCorrect (normalised (targetMeasure fun x => c.logpdf.val x data)) g (chainRows (b ω) i) (c.withProd n).nProdSteps δ} ≤ ε := by
  classical
  haveI := normalised_isProb _ hB.meas hB.finite
  obtain ⟨F, hF⟩ := intervals_of_finite (normalised (targetMeasure fun x => c.logpdf.val x data)) g hg δ hδ
  have hi : ∀ p : ℝ × Bool, Integrable (fun x => if (if p.2 then g x ≤ p.1 else g x < p.1) then (1 : ℝ) else 0) (normalised (targetMeasure fun x => c.logpdf.val x data)) := fun p =>
    Integrable.of_bound (indicator_measurable g hg p).aestronglyMeasurable 1 (ae_of_all _ fun x => by split_ifs <;> simp)
  have run := fun (p : ℝ × Bool) => C96_adaptive (V := V) h c hn hb hfin data hB hT hflow key init hx hX _ (indicator_measurable g hg p) (hi p) (δ / 4) (ε / (F.card + 1)) (by linarith) (by positivity)
  choose L hL using run
  refine ⟨max (max (L (0, true)) 1) (F.sup L), fun n hLn nd nc kw s hs => ?_⟩
  have hn0 : 0 < n := lt_of_lt_of_le Nat.one_pos ((le_max_right _ _).trans ((le_max_left _ _).trans hLn))
  obtain ⟨s', b, h1, h2, -⟩ := hL (0, true) n ((le_max_left _ _).trans ((le_max_left _ _).trans hLn)) nd nc kw s hs
  refine ⟨s', b, h1, h2, intervals_event P _ g hε F (fun ω i => chainRows (b ω) i) _ _ (fun r hr => hF r _ (nProdSteps_pos hB.good hn0) hr) fun p hp => ?_⟩
  obtain ⟨s2, b2, k1, k2, k3⟩ := hL p n ((Finset.le_sup hp).trans ((le_max_right _ _).trans hLn)) nd nc kw s hs
  have hbb : b2 = b := funext fun ω => by
    have es : s2 ω = s' ω := by have := (k1 ω).symm.trans (h1 ω); simpa using this
    have := k2 ω; rw [es, h2 ω] at this; simpa using this.symm
  rw [hbb] at k3
  exact k3

omit [BufNum ℝ] in
/-- **C103 (hard boundaries).** The same on a target with hard boundaries, everything else as in C100; moreover every production row is a finite point inside. -/
theorem C103_walls (h : IdealDraws past sig P env) (c : BundleCfg XR D d M O) (hn : 0 < c.nChains) (hb : 0 < c.batchSize) (hfin : ∀ x : ℝ, BufNum.isFinite (XR.fin x) = true) (data : Data D)
    (hB : AdaptiveWallBundle (fun _ => True) P sig env env' S lp grad c data ν push lnf G) (hT : OrdinaryTraining sig env' G) (hflow : c.flow ∈ G) (key : Key) (init : Ω → InitPos XR d)
    (hx : ∀ ω, (init ω).atleast2d.length = c.nChains) (hX : ∀ i < c.nChains, ∃ X : Ω → Fin d → ℝ, Measurable[past] X ∧ ∀ ω, (init ω).atleast2d[i]? = some (emb (X ω)) ∧ X ω ∈ S)
    (g : Pos ℝ d → ℝ) (hg : Measurable g) (δ ε : ℝ) (hδ : 0 < δ) (hε : 0 < ε) :
    ∃ L, ∀ (n : ℕ), L ≤ n → ∀ (nd nc : ℕ) (kw : List (String × V)) (s : Sampler XR D d M O V), Sampler.new nd nc key none none none (some (malaBundle (c.withProd n))) kw = .ok s →
      ∃ (s' : Ω → Sampler XR D d M O V) (b : Ω → Buffer XR), (∀ ω, s.sample (env' ω) (init ω) data = (.ok (), s' ω)) ∧ (∀ ω, (s' ω).heap.res "positions_production" = some (.buffer (b ω))) ∧
        (∀ ω, RowsInside S (b ω) c.nChains (c.withProd n).nProdSteps) ∧
        P.real {ω | ∃ i < c.nChains, ¬ IntervalsCorrect (normalised (wallMeasure S lp)) g (wallRows (b ω) i) (c.withProd n).nProdSteps δ} ≤ ε := by
  classical
  haveI := wall_isProb hB.nonzero hB.finite
  obtain ⟨F, hF⟩ := intervals_of_finite (normalised (wallMeasure S lp)) g hg δ hδ
  have hi : ∀ p : ℝ × Bool, Integrable (fun x => if (if p.2 then g x ≤ p.1 else g x < p.1) then (1 : ℝ) else 0) (normalised (wallMeasure S lp)) := fun p =>
    Integrable.of_bound (indicator_measurable g hg p).aestronglyMeasurable 1 (ae_of_all _ fun x => by split_ifs <;> simp)
  have run := fun (p : ℝ × Bool) => C100_adaptive (V := V) h c hn hb hfin data hB hT hflow key init hx hX _ (indicator_measurable g hg p) (hi p) (δ / 4) (ε / (F.card + 1)) (by linarith) (by positivity)
  choose L hL using run
  refine ⟨max (max (L (0, true)) 1) (F.sup L), fun n hLn nd nc kw s hs => ?_⟩
  have hn0 : 0 < n := lt_of_lt_of_le Nat.one_pos ((le_max_right _ _).trans ((le_max_left _ _).trans hLn))
  obtain ⟨s', b, h1, h2, h3, -⟩ := hL (0, true) n ((le_max_left _ _).trans ((le_max_left _ _).trans hLn)) nd nc kw s hs
  refine ⟨s', b, h1, h2, h3, intervals_event P _ g hε F (fun ω i => wallRows (b ω) i) _ _ (fun r hr => hF r _ (nProdSteps_pos hB.good hn0) hr) fun p hp => ?_⟩
  obtain ⟨s2, b2, k1, k2, -, k3⟩ := hL p n ((Finset.le_sup hp).trans ((le_max_right _ _).trans hLn)) nd nc kw s hs
  have hbb : b2 = b := funext fun ω => by
    have es : s2 ω = s' ω := by have := (k1 ω).symm.trans (h1 ω); simpa using this
    have := k2 ω; rw [es, h2 ω] at this; simpa using this.symm
  rw [hbb] at k3
  exact k3

end
end
end FlowMC
