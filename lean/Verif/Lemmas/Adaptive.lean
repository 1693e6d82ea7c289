import Verif.Spec.Adaptive
import Verif.Props.Averages
/-
Chains whose flow is random but fixed before the chain starts.
-/
open MeasureTheory ProbabilityTheory Filter
open scoped ENNReal Topology
set_option linter.unusedSectionVars false
namespace FlowMC
open Spec

/-! ### steps that depend on a passenger -/

section
variable {X W : Type} [MeasurableSpace X] [MeasurableSpace W]

/-- A step of the second component that depends on the first. -/
def onSndAt {N : Type} (step : W → N → X → X) (n : N) (p : W × X) : W × X := (p.1, step p.1 n p.2)

theorem onSndAt_measurable {N : Type} [MeasurableSpace N] {step : W → N → X → X} (hm : Measurable fun p : (W × X) × N => step p.1.1 p.2 p.1.2) :
    Measurable fun p : (W × X) × N => onSndAt step p.2 p.1 :=
  (measurable_fst.comp measurable_fst).prodMk hm

theorem onSndAt_section {N : Type} [MeasurableSpace N] {step : W → N → X → X} (hm : Measurable fun p : (W × X) × N => step p.1.1 p.2 p.1.2) (w : W) :
    Measurable fun p : X × N => step w p.2 p.1 :=
  hm.comp ((measurable_const.prodMk measurable_fst).prodMk measurable_snd)

variable {N1 N2 : Type} [MeasurableSpace N1] [MeasurableSpace N2] {ν1 : Measure N1} [IsProbabilityMeasure ν1] {ν2 : Measure N2} [IsProbabilityMeasure ν2]
  {s1 : W → N1 → X → X} {s2 : W → N2 → X → X}

theorem histMean_onSndAt (h : List Bool) (f : W × X → ℝ) (w : W) (x : X) :
    histMean (stepMean ν1 (onSndAt s1)) (stepMean ν2 (onSndAt s2)) h f (w, x) = histMean (stepMean ν1 (s1 w)) (stepMean ν2 (s2 w)) h (fun x => f (w, x)) x := by
  induction h generalizing f with
  | nil => rfl
  | cons b h ih => cases b <;> (rw [histMean, ih]; rfl)

theorem sweepAt_onSndAt {A B C : Type} (step : W → B × C → A → A) (j n : ℕ) (y : W) (x : A) (v : Fin n → B) (u : Fin n → C) :
    sweepAt (onSndAt step) j n (y, x) v u = (y, sweepAt (step y) j n x v u) := by
  induction j generalizing n x with
  | zero => rfl
  | succ j ih =>
    cases n with
    | zero => rfl
    | succ n => exact ih n _ _ _

theorem sweepAt_push {A B B' C : Type} (step : B × C → A → A) (g : B' → B) (j n : ℕ) (x : A) (v : Fin n → B') (u : Fin n → C) :
    sweepAt step j n x (fun i => g (v i)) u = sweepAt (fun p : B' × C => step (g p.1, p.2)) j n x v u := by
  induction j generalizing n x with
  | zero => rfl
  | succ j ih =>
    cases n with
    | zero => rfl
    | succ n => exact ih n _ _ _

/-- Drawing from `ν` and pushing is drawing from the image. -/
theorem stepLaw_push {B B' C : Type} [MeasurableSpace B] [MeasurableSpace B'] [MeasurableSpace C] (step : B × C → X → X) (hm : Measurable fun p : X × (B × C) => step p.2 p.1) (g : B' → B) (hg : Measurable g)
    (ν : Measure B') [IsProbabilityMeasure ν] (υ : Measure C) [IsProbabilityMeasure υ] (μ : Measure X) [IsProbabilityMeasure μ] :
    stepLaw (ν.prod υ) (fun p : B' × C => step (g p.1, p.2)) μ = stepLaw ((ν.map g).prod υ) step μ := by
  haveI : IsProbabilityMeasure (ν.map g) := Measure.isProbabilityMeasure_map hg.aemeasurable
  have e1 : (ν.map g).prod υ = (ν.prod υ).map (Prod.map g id) := by
    conv_lhs => rw [← Measure.map_id (μ := υ)]
    exact Measure.map_prod_map ν υ hg measurable_id
  have e2 : μ.prod ((ν.map g).prod υ) = (μ.prod (ν.prod υ)).map (Prod.map id (Prod.map g id)) := by
    rw [e1]
    conv_lhs => rw [← Measure.map_id (μ := μ)]
    exact Measure.map_prod_map μ _ measurable_id (hg.prodMap measurable_id)
  rw [stepLaw, stepLaw, e2, Measure.map_map hm (measurable_id.prodMap (hg.prodMap measurable_id))]
  rfl

/-- Probability of an event after a history, from the probabilities for each start. -/
theorem prob_onSndAt (h1 : Measurable fun p : (W × X) × N1 => s1 p.1.1 p.2 p.1.2) (h2 : Measurable fun p : (W × X) × N2 => s2 p.1.1 p.2 p.1.2) (h : List Bool) (μ : Measure (W × X)) [IsProbabilityMeasure μ]
    (E : Set (W × X)) (hE : MeasurableSet E) :
    (Measurable fun p : W × X => (histLaw (stepLaw ν1 (s1 p.1)) (stepLaw ν2 (s2 p.1)) h (Measure.dirac p.2)).real {y | (p.1, y) ∈ E}) ∧
    (histLaw (stepLaw ν1 (onSndAt s1)) (stepLaw ν2 (onSndAt s2)) h μ).real E =
      ∫ p, (histLaw (stepLaw ν1 (s1 p.1)) (stepLaw ν2 (s2 p.1)) h (Measure.dirac p.2)).real {y | (p.1, y) ∈ E} ∂μ := by
  have hind : Measurable (E.indicator (1 : W × X → ℝ)) := measurable_one.indicator hE
  have e : ∀ p : W × X, (histLaw (stepLaw ν1 (s1 p.1)) (stepLaw ν2 (s2 p.1)) h (Measure.dirac p.2)).real {y | (p.1, y) ∈ E} =
      histMean (stepMean ν1 (onSndAt s1)) (stepMean ν2 (onSndAt s2)) h (E.indicator 1) p := by
    rintro ⟨w, x⟩
    have hs : MeasurableSet {y | (w, y) ∈ E} := measurable_prodMk_left hE
    have e1 : (fun y => E.indicator (1 : W × X → ℝ) (w, y)) = {y | (w, y) ∈ E}.indicator 1 := by
      funext y; by_cases hy : (w, y) ∈ E <;> simp [Set.indicator, hy]
    rw [histMean_onSndAt, e1, histMean_eq (onSndAt_section h1 w) (onSndAt_section h2 w) h (measurable_one.indicator hs) (B := 1)
      (fun y => by by_cases hy : (w, y) ∈ E <;> simp [Set.indicator, hy]), integral_indicator_one hs]
  simp only [e]
  refine ⟨histMean_measurable (onSndAt_measurable h1) (onSndAt_measurable h2) h hind, ?_⟩
  rw [← integral_indicator_one hE, integral_histLaw (onSndAt_measurable h1) (onSndAt_measurable h2) h hind (B := 1)
    (fun p => by by_cases hx : p ∈ E <;> simp [hx])]

end

/-- If a sequence of events exhausts the space, and on the `N`-th event all later probabilities are near `a`, then later means are near `a`, uniformly. -/
theorem mean_near_of_pointwise {Ω : Type} [MeasurableSpace Ω] {P : Measure Ω} [IsProbabilityMeasure P] (N : Ω → ℕ) {ε : ℝ} (hε : 0 < ε) :
    ∃ N0, ∀ (φ : Ω → ℝ) (a : ℝ), Measurable φ → (∀ ω, 0 ≤ φ ω ∧ φ ω ≤ 1) → 0 ≤ a → a ≤ 1 → (∀ ω, N ω ≤ N0 → |φ ω - a| ≤ ε) →
      ∀ B, MeasurableSet B → |∫ ω in B, φ ω ∂P - a * P.real B| ≤ 2 * ε := by
  have hlim : Tendsto (fun n => P {ω | N ω ≤ n}) atTop (𝓝 1) := by
    have hmono : Monotone fun n => {ω | N ω ≤ n} := fun a b hab ω hω => le_trans hω hab
    have := tendsto_measure_iUnion_atTop (μ := P) hmono
    have hu : (⋃ n, {ω | N ω ≤ n}) = Set.univ := Set.eq_univ_of_forall fun ω => Set.mem_iUnion.2 ⟨N ω, le_refl (N ω)⟩
    rwa [hu, measure_univ] at this
  have hlim' := (ENNReal.tendsto_toReal ENNReal.one_ne_top).comp hlim
  obtain ⟨N0, hN0⟩ := (Metric.tendsto_atTop.1 hlim') ε hε
  refine ⟨N0, fun φ a hφ hb ha0 ha1 hc B hB => ?_⟩
  have h0 := hN0 N0 le_rfl
  simp only [Function.comp, ENNReal.toReal_one] at h0
  rw [Real.dist_eq] at h0
  set C := {ω | |φ ω - a| ≤ ε} with hC
  have hCm : MeasurableSet C := measurableSet_le (hφ.sub_const a).abs measurable_const
  have hsub : {ω | N ω ≤ N0} ⊆ C := fun ω hω => hc ω hω
  have hPC : 1 - ε ≤ P.real C := by
    have h1 : P.real {ω | N ω ≤ N0} ≤ P.real C := measureReal_mono hsub
    have := (abs_lt.1 h0).1
    change -ε < P.real {ω | N ω ≤ N0} - 1 at this
    linarith
  have hi : Integrable (fun ω => φ ω - a) P := (integrable_bdd hφ (B := 1) fun ω => by rw [abs_of_nonneg (hb ω).1]; exact (hb ω).2).sub (integrable_const a)
  have hφi : Integrable φ P := integrable_bdd hφ (B := 1) fun ω => by rw [abs_of_nonneg (hb ω).1]; exact (hb ω).2
  have e1 : ∫ ω in B, φ ω ∂P - a * P.real B = ∫ ω in B, (φ ω - a) ∂P := by
    rw [integral_sub hφi.integrableOn (integrable_const a), integral_const]
    simp [mul_comm]
  have hbd : ∀ ω, |φ ω - a| ≤ ε + Cᶜ.indicator 1 ω := by
    intro ω
    by_cases hω : ω ∈ C
    · have : |φ ω - a| ≤ ε := hω
      simpa [hω] using this
    · have h1 : |φ ω - a| ≤ 1 := by rw [abs_le]; constructor <;> linarith [(hb ω).1, (hb ω).2]
      have : Cᶜ.indicator (1 : Ω → ℝ) ω = 1 := by simp [hω]
      rw [this]; linarith
  have hi2 : Integrable (fun ω => ε + Cᶜ.indicator (1 : Ω → ℝ) ω) P := (integrable_const ε).add ((integrable_const (1 : ℝ)).indicator hCm.compl)
  rw [e1]
  calc |∫ ω in B, (φ ω - a) ∂P| ≤ ∫ ω in B, |φ ω - a| ∂P := abs_integral_le_integral_abs
    _ ≤ ∫ ω, |φ ω - a| ∂P := setIntegral_le_integral hi.abs (ae_of_all _ fun ω => abs_nonneg _)
    _ ≤ ∫ ω, (ε + Cᶜ.indicator 1 ω) ∂P := integral_mono hi.abs hi2 hbd
    _ = ε + P.real Cᶜ := by
      have := integral_add (μ := P) (integrable_const ε) ((integrable_const (1 : ℝ)).indicator hCm.compl)
      refine this.trans ?_
      have e : ∫ ω, Cᶜ.indicator (fun _ => (1 : ℝ)) ω ∂P = P.real Cᶜ := integral_indicator_one hCm.compl
      rw [e]; simp
    _ ≤ 2 * ε := by rw [probReal_compl_eq_one_sub hCm]; linarith

/-- The same for probabilities that are near a varying one. -/
theorem mean_near_of_pointwise' {Ω : Type} [MeasurableSpace Ω] {P : Measure Ω} [IsProbabilityMeasure P] (N : Ω → ℕ) {ε : ℝ} (hε : 0 < ε) :
    ∃ N0, ∀ φ a : Ω → ℝ, Measurable φ → Measurable a → (∀ ω, 0 ≤ φ ω ∧ φ ω ≤ 1) → (∀ ω, 0 ≤ a ω ∧ a ω ≤ 1) → (∀ ω, N ω ≤ N0 → |φ ω - a ω| ≤ ε) →
      |∫ ω, φ ω ∂P - ∫ ω, a ω ∂P| ≤ 2 * ε := by
  obtain ⟨N0, hN0⟩ := mean_near_of_pointwise (P := P) N hε
  refine ⟨N0, fun φ a hφ ha hb hc hn => ?_⟩
  have h1 := hN0 (fun ω => |φ ω - a ω|) 0 (hφ.sub ha).abs (fun ω => ⟨abs_nonneg _, abs_le.2 ⟨by linarith [(hb ω).1, (hc ω).2], by linarith [(hb ω).2, (hc ω).1]⟩⟩) le_rfl zero_le_one
    (fun ω hω => by rw [sub_zero, abs_abs]; exact hn ω hω) Set.univ MeasurableSet.univ
  rw [Measure.restrict_univ, zero_mul, sub_zero] at h1
  have hi1 : Integrable φ P := integrable_bdd hφ (B := 1) fun ω => by rw [abs_of_nonneg (hb ω).1]; exact (hb ω).2
  have hi2 : Integrable a P := integrable_bdd ha (B := 1) fun ω => by rw [abs_of_nonneg (hc ω).1]; exact (hc ω).2
  rw [← integral_sub hi1 hi2]
  exact (abs_integral_le_integral_abs).trans ((le_abs_self _).trans h1)

variable {Ω D M O V Z W : Type} {d : ℕ}
variable {past : MeasurableSpace Ω} {sig : Key → MeasurableSpace Ω} [mΩ : MeasurableSpace Ω] {P : Measure Ω} [IsProbabilityMeasure P] {env : Ω → Env ℝ D d M O} {T : Key → Prop}
  [MeasurableSpace M] [MeasurableSpace Z] [MeasurableSpace W]

/-- What was known before, and everything drawn with keys outside `U`. -/
def outside (past : MeasurableSpace Ω) (sig : Key → MeasurableSpace Ω) (U : Key → Prop) : MeasurableSpace Ω := info past sig {o | ∃ a, o = some a ∧ U a}ᶜ

open Classical in
/-- The draws with keys in `U`. -/
noncomputable def inside (sig : Key → MeasurableSpace Ω) (U : Key → Prop) (a : Key) : MeasurableSpace Ω := if U a then sig a else ⊥

theorem inside_le_sig (sig : Key → MeasurableSpace Ω) (U : Key → Prop) (a : Key) : inside sig U a ≤ sig a := by
  unfold inside; split
  · exact le_rfl
  · exact bot_le

theorem inside_le_info (past : MeasurableSpace Ω) (sig : Key → MeasurableSpace Ω) (U : Key → Prop) (a : Key) : inside sig U a ≤ info past sig {o | ∃ a, o = some a ∧ U a} := by
  unfold inside; split
  · exact sig_le_info ⟨a, rfl, ‹_›⟩
  · exact bot_le

/-- Everything drawn with keys outside `U` may be counted as past. -/
theorem idealOn_outside (h : IdealOn T past sig P env) (U : Key → Prop) (hT : ∀ a, U a → T a) : IdealOn U (outside past sig U) (inside sig U) P env := by
  have e : ∀ {a}, U a → inside sig U a = sig a := fun ha => by simp [inside, ha]
  refine ⟨h.info_le _, fun a => (inside_le_sig sig U a).trans (h.sig_le a), ?_, fun a ha n => ?_, fun a ha n => h.normal_law a (hT a ha) n, fun a ha => ?_, fun a ha => h.uniform_law a (hT a ha)⟩
  · rw [iIndep_iff]
    intro s A hA
    set B : Set Ω := if none ∈ s then A none else Set.univ with hB
    have hBm : MeasurableSet[outside past sig U] B := by
      rw [hB]; split
      · exact hA none ‹_›
      · exact MeasurableSet.univ
    have hCm : MeasurableSet[info past sig {o | ∃ a, o = some a ∧ U a}] (⋂ a ∈ Finset.eraseNone s, A (some a)) := by
      refine @Finset.measurableSet_biInter _ _ (info past sig {o | ∃ a, o = some a ∧ U a}) _ _ fun a ha => ?_
      exact inside_le_info past sig U a _ (hA (some a) (Finset.mem_eraseNone.1 ha))
    have hsplit : (⋂ o ∈ s, A o) = B ∩ ⋂ a ∈ Finset.eraseNone s, A (some a) := by
      ext ω
      simp only [Set.mem_iInter, Set.mem_inter_iff, Finset.mem_eraseNone, hB]
      constructor
      · intro hω
        refine ⟨?_, fun a ha => hω _ ha⟩
        split
        · exact hω none ‹_›
        · trivial
      · rintro ⟨h1, h2⟩ o ho
        cases o with
        | none => rw [if_pos ho] at h1; exact h1
        | some a => exact h2 a ho
    have hprod : ∏ o ∈ s, P (A o) = P B * ∏ a ∈ Finset.eraseNone s, P (A (some a)) := by
      by_cases hn : none ∈ s
      · have hs : s = Finset.insertNone (Finset.eraseNone s) := by rw [Finset.insertNone_eraseNone, Finset.insert_eq_of_mem hn]
        conv_lhs => rw [hs]
        rw [Finset.prod_insertNone, hB, if_pos hn]
      · have hs : s = (Finset.eraseNone s).map Function.Embedding.some := by rw [Finset.map_some_eraseNone, Finset.erase_eq_of_notMem hn]
        conv_lhs => rw [hs]
        rw [Finset.prod_map, hB, if_neg hn, measure_univ, one_mul]
        rfl
    have hind : Indep (outside past sig U) (info past sig {o | ∃ a, o = some a ∧ U a}) P := indep_iSup_of_disjoint h.elim_le h.indep disjoint_compl_left
    have hsome : P (⋂ a ∈ Finset.eraseNone s, A (some a)) = ∏ a ∈ Finset.eraseNone s, P (A (some a)) := by
      have h1 : iIndep (fun a : Key => inside sig U a) P := by
        have h2 : iIndep ((fun o : Option Key => o.elim past sig) ∘ some) P := h.indep.precomp (Option.some_injective _)
        refine iIndep_of_iIndep_of_le h2 fun a => ?_
        unfold inside; split
        · exact le_rfl
        · exact bot_le
      exact (iIndep_iff _ P).1 h1 _ fun a ha => hA (some a) (Finset.mem_eraseNone.1 ha)
    rw [hsplit, hprod, (Indep_iff _ _ P).1 hind B _ hBm hCm, hsome]
  · rw [e ha]; exact h.normal_meas a (hT a ha) n
  · rw [e ha]; exact h.uniform_meas a (hT a ha)

/-- Everything drawn with other keys may be counted as past. -/
theorem idealOn_before (h : IdealOn T past sig P env) (k : Key) (hT : ∀ a, Desc k a → T a) : IdealOn (Desc k) (before past sig k) (after sig k) P env := by
  have e : ∀ {a}, Desc k a → after sig k a = sig a := fun ha => by simp [after, ha]
  refine ⟨before_le h k, after_le h k, ?_, fun a ha n => ?_, fun a ha n => h.normal_law a (hT a ha) n, fun a ha => ?_, fun a ha => h.uniform_law a (hT a ha)⟩
  · rw [iIndep_iff]
    intro s A hA
    set B : Set Ω := if none ∈ s then A none else Set.univ with hB
    have hBm : MeasurableSet[before past sig k] B := by
      rw [hB]; split
      · exact hA none ‹_›
      · exact MeasurableSet.univ
    have hCm : MeasurableSet[info past sig (descSet k)] (⋂ a ∈ Finset.eraseNone s, A (some a)) := by
      refine @Finset.measurableSet_biInter _ _ (info past sig (descSet k)) _ _ fun a ha => ?_
      exact after_le_info past sig k a _ (hA (some a) (Finset.mem_eraseNone.1 ha))
    have hsplit : (⋂ o ∈ s, A o) = B ∩ ⋂ a ∈ Finset.eraseNone s, A (some a) := by
      ext ω
      simp only [Set.mem_iInter, Set.mem_inter_iff, Finset.mem_eraseNone, hB]
      constructor
      · intro hω
        refine ⟨?_, fun a ha => hω _ ha⟩
        split
        · exact hω none ‹_›
        · trivial
      · rintro ⟨h1, h2⟩ o ho
        cases o with
        | none => rw [if_pos ho] at h1; exact h1
        | some a => exact h2 a ho
    have hprod : ∏ o ∈ s, P (A o) = P B * ∏ a ∈ Finset.eraseNone s, P (A (some a)) := by
      by_cases hn : none ∈ s
      · have hs : s = Finset.insertNone (Finset.eraseNone s) := by rw [Finset.insertNone_eraseNone, Finset.insert_eq_of_mem hn]
        conv_lhs => rw [hs]
        rw [Finset.prod_insertNone, hB, if_pos hn]
      · have hs : s = (Finset.eraseNone s).map Function.Embedding.some := by rw [Finset.map_some_eraseNone, Finset.erase_eq_of_notMem hn]
        conv_lhs => rw [hs]
        rw [Finset.prod_map, hB, if_neg hn, measure_univ, one_mul]
        rfl
    have hind : Indep (before past sig k) (info past sig (descSet k)) P := indep_iSup_of_disjoint h.elim_le h.indep disjoint_compl_left
    have hsome : P (⋂ a ∈ Finset.eraseNone s, A (some a)) = ∏ a ∈ Finset.eraseNone s, P (A (some a)) := by
      have h1 : iIndep (fun a : Key => after sig k a) P := by
        have h2 : iIndep ((fun o : Option Key => o.elim past sig) ∘ some) P := h.indep.precomp (Option.some_injective _)
        refine iIndep_of_iIndep_of_le h2 fun a => ?_
        unfold after; split
        · exact le_rfl
        · exact bot_le
      exact (iIndep_iff _ P).1 h1 _ fun a ha => hA (some a) (Finset.mem_eraseNone.1 ha)
    rw [hsplit, hprod, (Indep_iff _ _ P).1 hind B _ hBm hCm, hsome]
  · rw [e ha]; exact h.normal_meas a (hT a ha) n
  · rw [e ha]; exact h.uniform_meas a (hT a ha)

variable {ν : Measure Z} {push : M → Z → Pos ℝ d} {lnf : M → Pos ℝ d → ℝ} {G : Set M}

theorem flowFamily_before (k : Key) (hT : ∀ a, Desc k a → T a) (hf : FlowFamily T P sig env ν push lnf G) : FlowFamily (Desc k) P (after sig k) env ν push lnf G :=
  ⟨hf.lawful, hf.prob, hf.pushMeas, hf.lnfMeas, fun a ha n => by
    have e : after sig k a = sig a := by simp [after, ha]
    rw [e]; exact hf.rows a (hT a ha) n, hf.logProb, hf.density⟩

theorem flowFamily_inside (U : Key → Prop) (hT : ∀ a, U a → T a) (hf : FlowFamily T P sig env ν push lnf G) : FlowFamily U P (inside sig U) env ν push lnf G :=
  ⟨hf.lawful, hf.prob, hf.pushMeas, hf.lnfMeas, fun a ha n => by
    have e : inside sig U a = sig a := by simp [inside, ha]
    rw [e]; exact hf.rows a (hT a ha) n, hf.logProb, hf.density⟩

/-- Fewer draws, the same past. -/
theorem idealOn_inside (h : IdealOn T past sig P env) (U : Key → Prop) (hT : ∀ a, U a → T a) : IdealOn U past (inside sig U) P env := by
  have e : ∀ {a}, U a → inside sig U a = sig a := fun ha => by simp [inside, ha]
  refine ⟨h.past_le, fun a => (inside_le_sig sig U a).trans (h.sig_le a), iIndep_of_iIndep_of_le h.indep fun o => ?_, fun a ha n => ?_, fun a ha n => h.normal_law a (hT a ha) n,
    fun a ha => ?_, fun a ha => h.uniform_law a (hT a ha)⟩
  · cases o with
    | none => exact le_rfl
    | some a => exact inside_le_sig sig U a
  · rw [e ha]; exact h.normal_meas a (hT a ha) n
  · rw [e ha]; exact h.uniform_meas a (hT a ha)

/-- The base draws behind the proposals of a sweep. -/
theorem base_draws (h : IdealOn T past sig P env) (hf : FlowFamily T P sig env ν push lnf G) (batch : ℕ) (hb : 0 < batch) (k : Key) (hT : ∀ a, Desc k a → T a) (n : ℕ) :
    ∃ z : Ω → Fin n → Z, Measurable[info past sig (descSet k)] z ∧ P.map z = Measure.pi (fun _ => ν) ∧
      ∀ ω, ∀ m ∈ G, ∀ i : Fin n, flowProposal (env ω).ops m batch k n i = push m (z ω i) := by
  haveI := hf.prob
  have hT' : ∀ i, T (stepKey k i) := fun i => hT _ (.child 1 (desc_carryKey k i))
  by_cases hbn : batch < n
  · set nb := ceilDiv' n batch with hnb
    set s := ceilDiv' n nb with hsd
    have hn : 0 < n := by omega
    have h1 : 0 < nb := ceilDiv'_pos n batch hb hn
    have h2 : n ≤ s * nb := ceilDiv'_mul_ge n nb h1
    have hs : 0 < s := ceilDiv'_pos n nb h1 hn
    have e : ∀ ω m (i : Fin n), flowProposal (env ω).ops m batch k n i = ((env ω).ops.sample m (stepKey k (i / s)) s).getD (i % s) 0 := by
      intro ω m i
      have hi : i.1 < nb * s := by have := i.2; rw [Nat.mul_comm]; omega
      rw [← flowBatches_getD _ (hf.lawful ω) m s nb k hs i hi]
      simp only [flowProposal, sampleFlow, if_pos hbn]
      rw [← hnb, ← hsd, ← List.map_flatten, ← List.map_take, List.map_map, show ((fun x : Pos ℝ d × ℝ => x.1) ∘ fun x => (x, (env ω).ops.logProb m x)) = id from rfl, List.map_id]
      simp [List.getD, List.getElem?_take, i.2]
    choose z zm zl ze using fun b => hf.rows (stepKey k b) (hT' b) s
    have hrow : ∀ (b : ℕ) (r : Fin s), Measurable[sig (stepKey k b)] (fun ω => z b ω r) := fun b r => (measurable_pi_apply r).comp (zm b)
    have hrow' : ∀ (b : ℕ) (r : Fin s), Measurable (fun ω => z b ω r) := fun b r => (hrow b r).mono (h.sig_le _) le_rfl
    have hrl : ∀ (b : ℕ) (r : Fin s), P.map (fun ω => z b ω r) = ν := by
      intro b r
      have : (fun ω => z b ω r) = (fun v : Fin s → Z => v r) ∘ z b := rfl
      rw [this, ← Measure.map_map (measurable_pi_apply r) ((zm b).mono (h.sig_le _) le_rfl), zl b]
      exact (measurePreserving_eval (fun _ : Fin s => ν) r).map_eq
    have hind : iIndepFun (fun (p : ℕ × Fin s) ω => z p.1 ω p.2) P := by
      refine iIndepFun_uncurry' (X := fun (b : ℕ) (r : Fin s) ω => z b ω r) hrow' ?_ ?_
      · exact h.keys_indep (stepKey k) (stepKey_injective k) _ (fun b => zm b)
      · intro b
        rw [iIndepFun_iff_map_fun_eq_pi_map (fun r => (hrow' b r).aemeasurable)]
        simp only [hrl]
        exact zl b
    have hidx : Function.Injective (fun i : Fin n => ((i.1 / s, ⟨i.1 % s, Nat.mod_lt _ hs⟩) : ℕ × Fin s)) := by
      intro a b hab
      simp only [Prod.mk.injEq, Fin.mk.injEq] at hab
      refine Fin.ext ?_
      rw [← Nat.div_add_mod a.1 s, ← Nat.div_add_mod b.1 s, hab.1, hab.2]
    have hind2 := hind.precomp hidx
    refine ⟨fun ω i => z (i.1 / s) ω ⟨i.1 % s, Nat.mod_lt _ hs⟩, @measurable_pi_lambda _ _ _ (info past sig (descSet k)) _ _ fun i => (hrow _ ⟨i.1 % s, Nat.mod_lt _ hs⟩).mono (sig_le_info (mem_descSet (.child 1 (desc_carryKey k _)))) le_rfl, ?_, ?_⟩
    · have := (iIndepFun_iff_map_fun_eq_pi_map (fun i => (hrow' _ _).aemeasurable)).1 hind2
      refine this.trans (congrArg Measure.pi (funext fun i => hrl _ _))
    · intro ω m hm i
      rw [e]
      exact ze _ ω m hm ⟨i.1 % s, Nat.mod_lt _ hs⟩
  · obtain ⟨z, zm, zl, ze⟩ := hf.rows k (hT k .refl) n
    refine ⟨z, zm.mono (sig_le_info (mem_descSet .refl)) le_rfl, zl, fun ω m hm i => ?_⟩
    rw [← ze ω m hm i]
    simp only [flowProposal, sampleFlow, if_neg hbn]
    rw [List.map_map, show ((fun x : Pos ℝ d × ℝ => x.1) ∘ fun x => (x, (env ω).ops.logProb m x)) = id from rfl, List.map_id]

/-- A flow proposal from base noise, for the flow carried along. -/
noncomputable def pushStep (t : Target ℝ D d) (data : Data D) (push : M → Z → Pos ℝ d) (lnf : M → Pos ℝ d → ℝ) (φ : W → M) (w : W) (p : Z × ℝ) : Pos ℝ d → Pos ℝ d :=
  flowStep t data (lnf (φ w)) (push (φ w) p.1, p.2)

theorem pushStep_measurable (t : Target ℝ D d) (data : Data D) (ht : Measurable (fun x => t.val x data)) (hp : Measurable fun p : M × Z => push p.1 p.2)
    (hl : Measurable fun p : M × Pos ℝ d => lnf p.1 p.2) (φ : W → M) (hφ : Measurable φ) :
    Measurable fun p : (W × Pos ℝ d) × (Z × ℝ) => pushStep t data push lnf φ p.1.1 p.2 p.1.2 := by
  simp only [pushStep, flowStep, nfBody, acceptTest_real]
  have hφ' : Measurable fun p : (W × Pos ℝ d) × (Z × ℝ) => φ p.1.1 := hφ.comp (measurable_fst.comp measurable_fst)
  have hx : Measurable fun p : (W × Pos ℝ d) × (Z × ℝ) => p.1.2 := measurable_snd.comp measurable_fst
  have hy : Measurable fun p : (W × Pos ℝ d) × (Z × ℝ) => push (φ p.1.1) p.2.1 := hp.comp (hφ'.prodMk (measurable_fst.comp measurable_snd))
  have hu : Measurable fun p : (W × Pos ℝ d) × (Z × ℝ) => p.2.2 := measurable_snd.comp measurable_snd
  refine Measurable.ite (measurableSet_lt (Real.measurable_log.comp hu) ?_) hy hx
  exact ((ht.comp hy).sub (ht.comp hx)).sub ((hl.comp (hφ'.prodMk hy)).sub (hl.comp (hφ'.prodMk hx)))

/-- A flow sweep with a flow known before. -/
theorem sweep_family (h : IdealOn T past sig P env) (hf : FlowFamily T P sig env ν push lnf G) (batch : ℕ) (hb : 0 < batch) (t : Target ℝ D d) (data : Data D) (ht : Measurable (fun x => t.val x data))
    (φ : W → M) (hφ : Measurable φ) (μ : Measure (W × Pos ℝ d)) [IsProbabilityMeasure μ] (n : ℕ) (k : Key) (hT : ∀ a, Desc k a → T a)
    (S : Set (Option Key)) (hS : Disjoint S (descSet k)) (Y : Ω → W) (hY : Measurable[info past sig S] Y) (hG : ∀ ω, φ (Y ω) ∈ G) (X : Ω → Pos ℝ d) (hX : Measurable[info past sig S] X)
    (hlaw : P.map (fun ω => (Y ω, X ω)) = μ) (j : ℕ) (hj : j ≤ n) :
    P.map (fun ω => (Y ω, sweepAt (flowStep t data (lnf (φ (Y ω)))) j n (X ω) (fun i : Fin n => flowProposal (env ω).ops (φ (Y ω)) batch (.child k 1) n i)
        (fun i : Fin n => (env ω).rng.uniform (stepKey (.child k 0) i)))) = (stepLaw (ν.prod unif) (onSndAt (pushStep t data push lnf φ)))^[j] μ ∧
    Measurable[info past sig (S ∪ descSet k)] (fun ω => sweepAt (flowStep t data (lnf (φ (Y ω)))) j n (X ω) (fun i : Fin n => flowProposal (env ω).ops (φ (Y ω)) batch (.child k 1) n i)
        (fun i : Fin n => (env ω).rng.uniform (stepKey (.child k 0) i))) := by
  haveI := hf.prob
  obtain ⟨z, zm, zl, ze⟩ := base_draws h hf batch hb (.child k 1) (fun a ha => hT a (desc_trans (.child 1 .refl) ha)) n
  obtain ⟨um, ul⟩ := uniforms_law h (.child k 0) (fun a ha => hT a (desc_trans (.child 0 .refl) ha)) n
  have vu := h.joint (descSet_disjoint (by decide)) zm um
  have vum : Measurable[info past sig (descSet k)] (fun ω => (z ω, (fun i : Fin n => (env ω).rng.uniform (stepKey (.child k 0) i)))) :=
    (zm.mono (info_mono descSet_child) le_rfl).prodMk (um.mono (info_mono descSet_child) le_rfl)
  have hjt := h.joint hS (hY.prodMk hX) vum
  rw [vu, zl, ul, hlaw] at hjt
  have hsm := onSndAt_measurable (pushStep_measurable t data ht hf.pushMeas hf.lnfMeas φ hφ)
  have hmeas := sweepAt_measurable (onSndAt (pushStep t data push lnf φ)) hsm j n
  have e : ∀ ω, sweepAt (flowStep t data (lnf (φ (Y ω)))) j n (X ω) (fun i : Fin n => flowProposal (env ω).ops (φ (Y ω)) batch (.child k 1) n i)
        (fun i : Fin n => (env ω).rng.uniform (stepKey (.child k 0) i)) =
      (sweepAt (onSndAt (pushStep t data push lnf φ)) j n (Y ω, X ω) (z ω) (fun i : Fin n => (env ω).rng.uniform (stepKey (.child k 0) i))).2 := by
    intro ω
    rw [sweepAt_onSndAt]
    simp only [ze ω _ (hG ω)]
    exact sweepAt_push _ (push (φ (Y ω))) j n (X ω) (z ω) _
  have e' : ∀ ω, (Y ω, sweepAt (flowStep t data (lnf (φ (Y ω)))) j n (X ω) (fun i : Fin n => flowProposal (env ω).ops (φ (Y ω)) batch (.child k 1) n i)
        (fun i : Fin n => (env ω).rng.uniform (stepKey (.child k 0) i))) =
      sweepAt (onSndAt (pushStep t data push lnf φ)) j n (Y ω, X ω) (z ω) (fun i : Fin n => (env ω).rng.uniform (stepKey (.child k 0) i)) := by
    intro ω
    rw [e, sweepAt_onSndAt]
  constructor
  · simp only [e']
    have : (fun ω => sweepAt (onSndAt (pushStep t data push lnf φ)) j n (Y ω, X ω) (z ω) (fun i : Fin n => (env ω).rng.uniform (stepKey (.child k 0) i))) =
        (fun p : (W × Pos ℝ d) × ((Fin n → Z) × (Fin n → ℝ)) => sweepAt (onSndAt (pushStep t data push lnf φ)) j n p.1 p.2.1 p.2.2) ∘
          fun ω => ((Y ω, X ω), (z ω, (fun i : Fin n => (env ω).rng.uniform (stepKey (.child k 0) i)))) := rfl
    rw [this, ← Measure.map_map hmeas (((hY.prodMk hX).mono (h.info_le _) le_rfl).prodMk (vum.mono (h.info_le _) le_rfl)), hjt]
    exact sweepAt_iter _ hsm μ ν unif j n hj
  · simp only [e]
    exact (measurable_snd.comp hmeas).comp (((hY.prodMk hX).mono (info_mono Set.subset_union_left) le_rfl).prodMk (vum.mono (info_mono Set.subset_union_right) le_rfl))

/-! ### production -/

variable [BufNum ℝ]

/-- Joint laws of the rows of production with what was known before, when the flow is part of what was known before. -/
theorem family_rowLawsOn (hTc : ∀ a, T a → ∀ b, Desc a b → T b) (h : IdealOn T past sig P env) (c : BundleCfg ℝ D d M O) (hc : GoodCfg c) (data : Data D)
    (ht : Measurable (fun x => c.logpdf.val x data)) (hg : Measurable (fun x => c.logpdf.grad x data)) (hig : IgnoresNSteps c.logpdf)
    (hf : FlowFamily T P sig env ν push lnf G) (φ : W → M) (hφ : Measurable φ) (Y : Ω → W) (hG : ∀ ω, φ (Y ω) ∈ G) (μ : Measure (W × Pos ℝ d)) :
    RowLawsOn (fun hist S f => JointLaw past sig P S Y (histLaw (stepLaw (noise d) (onSndAt fun _ : W => localStep (.mala c.stepSize : KernelRes ℝ d M) c.logpdf data))
      (stepLaw (ν.prod unif) (onSndAt (pushStep c.logpdf data push lnf φ))) hist μ) f) env c data (fun ω => φ (Y ω)) T := by
  refine ⟨?_, ?_, hc, fun ω => hf.lawful ω, ?_, ?_⟩
  · rintro hist S S' f hS ⟨hY, X, h1, h2, h3⟩; exact ⟨hY.mono (info_mono hS) le_rfl, X, h1, h2.mono (info_mono hS) le_rfl, h3⟩
  · rintro hist S f ⟨hY, X, h1, h2, h3⟩; exact ⟨X, h1⟩
  · rintro a ha hist S hS X ⟨hY, X', hX', hXm, hXl⟩ j hj
    obtain rfl : X' = X := funext fun ω => (Option.some.inj (hX' ω)).symm
    obtain ⟨h1, h2⟩ := serial_joint h (.mala c.stepSize : KernelRes ℝ d M) (fun ω k x lp t data => malaKernel (env ω).rng c.stepSize k x lp t data) (fun _ => rfl) c.logpdf data ht hg _ (j + 1) a
      (hTc a ha) S hS Y hY X' hXm hXl
    refine ⟨hY.mono (info_mono Set.subset_union_left) le_rfl, _, fun ω => serialSample_state _ c.logpdf data c.nLocal a (X' ω) (j + 1) hj, h2, ?_⟩
    rw [h1, histLaw_append, histLaw_local]
    rfl
  · rintro a ha hist S hS X ⟨hY, X', hX', hXm, hXl⟩ rows hrows j hj
    obtain rfl : X' = X := funext fun ω => (Option.some.inj (hX' ω)).symm
    haveI : IsProbabilityMeasure (P.map fun ω => (Y ω, X' ω)) := Measure.isProbabilityMeasure_map ((hY.prodMk hXm).mono (h.info_le _) le_rfl).aemeasurable
    obtain ⟨h1, h2⟩ := sweep_family h hf c.nfBatch hc.nfBatch c.logpdf data ht φ hφ _ c.nGlobal a (hTc a ha) S hS Y hY hG X' hXm rfl (j + 1) hj
    refine ⟨hY.mono (info_mono Set.subset_union_left) le_rfl, _, fun ω => ?_, h2, ?_⟩
    · obtain ⟨r, e, -, hr⟩ := group_sweep (env ω) (hf.lawful ω) (φ (Y ω)) c.nfBatch hc.nfBatch c.logpdf hig data c.nGlobal a (X' ω)
      rw [hrows ω, Except.ok.injEq] at e
      simp only [e, hr j hj, hf.logProb ω _ (hG ω)]
    · rw [h1, hXl, histLaw_append, histLaw_global]

theorem family_rowLaws (k : Key) (h : IdealOn (Desc k) past sig P env) (c : BundleCfg ℝ D d M O) (hc : GoodCfg c) (data : Data D)
    (ht : Measurable (fun x => c.logpdf.val x data)) (hg : Measurable (fun x => c.logpdf.grad x data)) (hig : IgnoresNSteps c.logpdf)
    (hf : FlowFamily (Desc k) P sig env ν push lnf G) (φ : W → M) (hφ : Measurable φ) (Y : Ω → W) (hG : ∀ ω, φ (Y ω) ∈ G) (μ : Measure (W × Pos ℝ d)) :
    RowLaws (fun hist S f => JointLaw past sig P S Y (histLaw (stepLaw (noise d) (onSndAt fun _ : W => localStep (.mala c.stepSize : KernelRes ℝ d M) c.logpdf data))
      (stepLaw (ν.prod unif) (onSndAt (pushStep c.logpdf data push lnf φ))) hist μ) f) env c data (fun ω => φ (Y ω)) k :=
  family_rowLawsOn (fun _ ha _ => desc_trans ha) h c hc data ht hg hig hf φ hφ Y hG μ

/-- The law of a chain whose flow is fixed, in terms of the base draws. -/
theorem histLaw_push (c : BundleCfg ℝ D d M O) (data : Data D) (ht : Measurable (fun x => c.logpdf.val x data)) (hg : Measurable (fun x => c.logpdf.grad x data)) (hf : FlowFamily T P sig env ν push lnf G)
    (φ : W → M) (y : W) (hist : List Bool) (μ : Measure (Pos ℝ d)) [IsProbabilityMeasure μ] :
    histLaw (stepLaw (noise d) (localStep (.mala c.stepSize : KernelRes ℝ d M) c.logpdf data)) (stepLaw (ν.prod unif) (pushStep c.logpdf data push lnf φ y)) hist μ =
    histLaw (stepLaw (noise d) (localStep (.mala c.stepSize : KernelRes ℝ d M) c.logpdf data)) (stepLaw ((ν.map (push (φ y))).prod unif) (flowStep c.logpdf data (lnf (φ y)))) hist μ := by
  haveI := hf.prob
  have hp : Measurable (push (φ y)) := hf.pushMeas.comp (measurable_const.prodMk measurable_id)
  have hl : Measurable (lnf (φ y)) := hf.lnfMeas.comp (measurable_const.prodMk measurable_id)
  haveI : IsProbabilityMeasure (ν.map (push (φ y))) := Measure.isProbabilityMeasure_map hp.aemeasurable
  haveI : IsProbabilityMeasure (noise d) := by unfold noise; infer_instance
  have h1 := localStep_measurable (.mala c.stepSize : KernelRes ℝ d M) c.logpdf data ht hg
  have h2 := flowStep_measurable c.logpdf data (lnf (φ y)) ht hl
  induction hist with
  | nil => rfl
  | cons b hist ih =>
    haveI := histLaw_prob (ν1 := noise d) (ν2 := (ν.map (push (φ y))).prod unif) h1 h2 hist μ
    cases b
    · rw [histLaw, histLaw, ih]
      exact stepLaw_push _ h2 _ hp ν unif _
    · rw [histLaw, histLaw, ih]

end FlowMC
