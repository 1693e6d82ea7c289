import Verif.Props.AdaptiveRun
/-
Random points that are, up to an error, independent of the past: images, and families whose members are fresh one after the other.
-/
open MeasureTheory ProbabilityTheory Filter
open scoped ENNReal Topology
set_option linter.unusedSectionVars false
namespace FlowMC
open Spec

section
variable {X Y N : Type} [MeasurableSpace X] [MeasurableSpace Y] [MeasurableSpace N]

theorem near_map {μ π : Measure X} {ε : ℝ} (h : Near μ π ε) {f : X → Y} (hf : Measurable f) : Near (μ.map f) (π.map f) ε := fun A hA => by
  rw [map_measureReal_apply hf hA, map_measureReal_apply hf hA]; exact h _ (hf hA)

theorem near_trans {μ π ρ : Measure X} {ε δ : ℝ} (h : Near μ π ε) (h' : Near π ρ δ) : Near μ ρ (ε + δ) := fun A hA =>
  (abs_sub_le _ (π.real A) _).trans (add_le_add (h A hA) (h' A hA))

theorem near_prod {μ π : Measure X} [IsProbabilityMeasure μ] [IsProbabilityMeasure π] {ε : ℝ} (h : Near μ π ε) (ν : Measure N) [IsProbabilityMeasure ν] : Near (μ.prod ν) (π.prod ν) ε := by
  have hε : 0 ≤ ε := le_trans (abs_nonneg _) (h ∅ MeasurableSet.empty)
  intro B hB
  rw [real_close_iff hε]
  exact ⟨prod_le_of_sections _ (fun A hA => ((real_close_iff hε A).1 (h A hA)).1) B hB, prod_le_of_sections _ (fun A hA => ((real_close_iff hε A).1 (h A hA)).2) B hB⟩

end

variable {Ω : Type} {past past' : MeasurableSpace Ω} [mΩ : MeasurableSpace Ω] {P : Measure Ω} [IsProbabilityMeasure P]
variable {A B : Type} [MeasurableSpace A] [MeasurableSpace B]

theorem fresh_iff_near (hle : past ≤ mΩ) {Y : Ω → A} (hY : Measurable Y) {π : Measure A} [IsProbabilityMeasure π] {ε : ℝ} :
    FreshInLaw past P Y π ε ↔ Near (P.map fun ω => (toPast past ω, Y ω)) ((P.map (toPast past)).prod π) ε := by
  have hid : Measurable (toPast past) := (toPast_measurable past).mono hle le_rfl
  have hp : Measurable fun ω => (toPast past ω, Y ω) := hid.prodMk hY
  haveI : IsProbabilityMeasure (P.map (toPast past)) := Measure.isProbabilityMeasure_map hid.aemeasurable
  have key : ∀ E : Set (PastOf past × A), MeasurableSet E → (P.map fun ω => (toPast past ω, Y ω)).real E = P.real {ω | (toPast past ω, Y ω) ∈ E} ∧
      ((P.map (toPast past)).prod π).real E = ∫ ω, π.real {y | (toPast past ω, y) ∈ E} ∂P := by
    intro E hE
    have hs : Measurable fun w : PastOf past => π.real {y | (w, y) ∈ E} := (measurable_measure_prodMk_left hE).ennreal_toReal
    refine ⟨map_measureReal_apply hp hE, ?_⟩
    rw [measureReal_def, Measure.prod_apply hE, ← integral_toReal (measurable_measure_prodMk_left hE).aemeasurable (ae_of_all _ fun w => measure_lt_top _ _)]
    exact integral_map hid.aemeasurable hs.aestronglyMeasurable
  constructor
  · intro h E hE
    rw [(key E hE).1, (key E hE).2]; exact h E hE
  · intro h E hE
    have := h E hE
    rw [(key E hE).1, (key E hE).2] at this; exact this

/-- A function of a fresh point. -/
theorem fresh_map (hle : past ≤ mΩ) {Y : Ω → A} (hY : Measurable Y) {π : Measure A} [IsProbabilityMeasure π] {ε : ℝ} (h : FreshInLaw past P Y π ε) {f : A → B} (hf : Measurable f) :
    FreshInLaw past P (fun ω => f (Y ω)) (π.map f) ε := by
  intro E hE
  have hm : Measurable fun p : PastOf past × A => (p.1, f p.2) := measurable_fst.prodMk (hf.comp measurable_snd)
  have := h {p | (p.1, f p.2) ∈ E} (hm hE)
  refine le_of_eq_of_le ?_ this
  congr 2
  refine integral_congr_ae (ae_of_all _ fun ω => ?_)
  have hs : MeasurableSet {y | (ω, y) ∈ E} := (@measurable_prodMk_left Ω B past _ ω) hE
  exact map_measureReal_apply hf hs

theorem fresh_past (hle : past ≤ past') {Y : Ω → A} {π : Measure A} {ε : ℝ} (h : FreshInLaw past' P Y π ε) : FreshInLaw past P Y π ε := fun E hE =>
  h E (sup_le_sup (MeasurableSpace.comap_mono hle) le_rfl E hE)

/-- A second point that is fresh with respect to the past and the first. -/
theorem fresh_pair (hle : past ≤ past') (hle' : past' ≤ mΩ) {U : Ω → A} {V : Ω → B} (hU : Measurable[past'] U) (hV : Measurable V) {ρ : Measure A} {π : Measure B} [IsProbabilityMeasure ρ]
    [IsProbabilityMeasure π] {δ ε : ℝ} (h1 : FreshInLaw past P U ρ δ) (h2 : FreshInLaw past' P V π ε) : FreshInLaw past P (fun ω => (V ω, U ω)) (π.prod ρ) (ε + δ) := by
  have hU' : Measurable U := hU.mono hle' le_rfl
  have hid : Measurable (toPast past) := (toPast_measurable past).mono (hle.trans hle') le_rfl
  have hid' : Measurable (toPast past') := (toPast_measurable past').mono hle' le_rfl
  rw [fresh_iff_near (hle.trans hle') hU'] at h1
  rw [fresh_iff_near hle' hV] at h2
  rw [fresh_iff_near (hle.trans hle') (hV.prodMk hU')]
  haveI : IsProbabilityMeasure (P.map (toPast past)) := Measure.isProbabilityMeasure_map hid.aemeasurable
  haveI : IsProbabilityMeasure (P.map (toPast past')) := Measure.isProbabilityMeasure_map hid'.aemeasurable
  haveI : IsProbabilityMeasure (P.map fun ω => (toPast past ω, U ω)) := Measure.isProbabilityMeasure_map (hid.prodMk hU').aemeasurable
  have hback : Measurable fun w : PastOf past' => toPast past w := fun s hs => hle s hs
  have hUback : Measurable fun w : PastOf past' => U w := hU
  have hg : Measurable fun p : PastOf past' × B => (toPast past p.1, (p.2, U p.1)) := (hback.comp measurable_fst).prodMk (measurable_snd.prodMk (hUback.comp measurable_fst))
  have hk : Measurable fun p : (PastOf past × A) × B => (p.1.1, (p.2, p.1.2)) := by fun_prop
  have s1 := near_map h2 hg
  have s2 := near_map (near_prod h1 π) hk
  rw [Measure.map_map hg (hid'.prodMk hV)] at s1
  have e1 : ((P.map (toPast past')).prod π).map (fun p : PastOf past' × B => (toPast past p.1, (p.2, U p.1))) =
      ((P.map fun ω => (toPast past ω, U ω)).prod π).map fun p : (PastOf past × A) × B => (p.1.1, (p.2, p.1.2)) := by
    have hm : Measurable fun w : PastOf past' => (toPast past w, U w) := hback.prodMk hUback
    have e : P.map (fun ω => (toPast past ω, U ω)) = (P.map (toPast past')).map fun w : PastOf past' => (toPast past w, U w) := (Measure.map_map hm hid').symm
    have e' : ((P.map (toPast past')).map fun w : PastOf past' => (toPast past w, U w)).prod π = ((P.map (toPast past')).prod π).map (Prod.map (fun w : PastOf past' => (toPast past w, U w)) id) := by
      conv_lhs => rw [← Measure.map_id (μ := π)]
      exact Measure.map_prod_map _ _ hm measurable_id
    rw [e, e', Measure.map_map hk (hm.prodMap measurable_id)]
    rfl
  have e2 : (((P.map (toPast past)).prod ρ).prod π).map (fun p : (PastOf past × A) × B => (p.1.1, (p.2, p.1.2))) = (P.map (toPast past)).prod (π.prod ρ) := by
    have a1 : ((P.map (toPast past)).prod ρ).prod π = ((P.map (toPast past)).prod (ρ.prod π)).map MeasurableEquiv.prodAssoc.symm := by
      rw [← Measure.prodAssoc_prod (μ := P.map (toPast past)) (ν := ρ) (τ := π), Measure.map_map (MeasurableEquiv.measurable _) (MeasurableEquiv.measurable _)]
      simp
    have a2 : (P.map (toPast past)).prod (π.prod ρ) = ((P.map (toPast past)).prod (ρ.prod π)).map (Prod.map id Prod.swap) := by
      have sw : π.prod ρ = (ρ.prod π).map Prod.swap := (Measure.prod_swap (μ := ρ) (ν := π)).symm
      rw [sw]
      conv_lhs => rw [← Measure.map_id (μ := P.map (toPast past))]
      exact Measure.map_prod_map _ _ measurable_id measurable_swap
    rw [a1, a2, Measure.map_map hk (MeasurableEquiv.measurable _)]
    rfl
  rw [e1] at s1
  rw [e2] at s2
  exact near_trans s1 s2

/-- A family of random points, each fresh with respect to the past and all the others, is as a whole fresh. -/
theorem fresh_family (hle : past ≤ mΩ) (r : ℕ) (Y : Fin r → Ω → A) (pasts : Fin r → MeasurableSpace Ω) (hp : ∀ i, past ≤ pasts i) (hp' : ∀ i, pasts i ≤ mΩ)
    (hY : ∀ i, Measurable (Y i)) (hYo : ∀ i j, i ≠ j → Measurable[pasts i] (Y j)) {π : Measure A} [IsProbabilityMeasure π] {ε : ℝ} (h : ∀ i, FreshInLaw (pasts i) P (Y i) π ε) :
    FreshInLaw past P (fun ω i => Y i ω) (Measure.pi fun _ : Fin r => π) (r * ε) := by
  induction r with
  | zero =>
    rw [fresh_iff_near hle (measurable_pi_lambda _ fun i => hY i)]
    have hid : Measurable (toPast past) := (toPast_measurable past).mono hle le_rfl
    have hs : (fun ω => (toPast past ω, fun i : Fin 0 => Y i ω)) = (fun w : PastOf past => (w, (Fin.elim0 : Fin 0 → A))) ∘ toPast past := by
      funext ω; exact Prod.ext rfl (Subsingleton.elim _ _)
    have hd : (Measure.pi fun _ : Fin 0 => π) = Measure.dirac Fin.elim0 := by
      rw [Measure.pi_of_empty _ Fin.elim0]
    intro E hE
    have hc : Measurable fun w : PastOf past => (w, (Fin.elim0 : Fin 0 → A)) := measurable_id.prodMk measurable_const
    rw [hs, ← Measure.map_map hc hid, hd, Measure.prod_dirac]
    simp
  | succ r ih =>
    have h1 := ih (fun i => Y i.castSucc) (fun i => pasts i.castSucc) (fun i => hp _) (fun i => hp' _) (fun i => hY _) (fun i j hij => hYo _ _ (fun e => hij (Fin.castSucc_injective r e))) (fun i => h _)
    have hUm : Measurable[pasts (Fin.last r)] fun ω (i : Fin r) => Y i.castSucc ω := @measurable_pi_lambda _ _ _ (pasts (Fin.last r)) _ _ fun i => hYo _ _ (Fin.castSucc_lt_last i).ne'
    have h2 := fresh_pair (hp (Fin.last r)) (hp' (Fin.last r)) hUm (hY (Fin.last r)) h1 (h (Fin.last r))
    have hm := MeasurableEquiv.measurable (MeasurableEquiv.piFinSuccAbove (fun _ : Fin (r + 1) => A) (Fin.last r)).symm
    have h3 := fresh_map hle ((hY (Fin.last r)).prodMk (hUm.mono (hp' _) le_rfl)) h2 hm
    have e1 : (π.prod (Measure.pi fun _ : Fin r => π)).map (MeasurableEquiv.piFinSuccAbove (fun _ : Fin (r + 1) => A) (Fin.last r)).symm = Measure.pi fun _ : Fin (r + 1) => π :=
      ((measurePreserving_piFinSuccAbove (fun _ : Fin (r + 1) => π) (Fin.last r)).symm _).map_eq
    have e2 : (fun ω => (MeasurableEquiv.piFinSuccAbove (fun _ : Fin (r + 1) => A) (Fin.last r)).symm (Y (Fin.last r) ω, fun i : Fin r => Y i.castSucc ω)) = fun ω i => Y i ω := by
      funext ω i
      refine Fin.lastCases ?_ (fun i => ?_) i
      · simp [MeasurableEquiv.piFinSuccAbove]
      · simp [MeasurableEquiv.piFinSuccAbove]
    rw [e1, e2] at h3
    have : ((r + 1 : ℕ) : ℝ) * ε = ε + r * ε := by push_cast; ring
    rw [this]
    exact h3

end FlowMC
