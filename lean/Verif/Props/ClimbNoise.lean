import Verif.Props.Climb
import Verif.Props.FlowChains
import Verif.Props.IdealWorld
/-
C114: the part of the noise, and examples.
-/
open Filter MeasureTheory ProbabilityTheory
open scoped Topology ENNReal
set_option linter.unusedSectionVars false
namespace FlowMC
open Spec
noncomputable section

variable {Ω D M O : Type} {d : ℕ}
variable {past : MeasurableSpace Ω} {sig : Key → MeasurableSpace Ω} [mΩ : MeasurableSpace Ω] {P : Measure Ω} [IsProbabilityMeasure P] {env : Ω → Env ℝ D d M O}
variable {logpdf : Target ℝ D d} {noise : ℝ} {bounds : List (ℝ × ℝ)} {data : Data D} {x : Fin d → ℝ}

/-- All noise factors of a chain lie on one side of 0. -/
theorem factors_prob (h : IdealDraws past sig P env) (k : Key) (j n : ℕ) (B : Set ℝ) (hB : MeasurableSet B) :
    P {ω | ∀ s < n, noiseFactor (env ω).rng noise k j s ∈ B} = (gaussianReal 0 1 ((fun t => 1 + t * noise) ⁻¹' B)) ^ n := by
  set kj : Key := .child (.child k 1) j
  set f : Fin n → Ω → ℝ := fun s ω => (env ω).rng.normal (stepKey kj s) 1 0 with hf
  have hm : ∀ s, Measurable[sig (stepKey kj s)] (fun ω => (env ω).rng.normal (stepKey kj s) 1 0) := fun s => (measurable_pi_apply (0 : Fin 1)).comp (h.normal_meas _ trivial 1)
  have hm' : ∀ s : Fin n, Measurable (f s) := fun s => (hm s).mono (h.sig_le _) le_rfl
  have hlaw : ∀ s : Fin n, P.map (f s) = gaussianReal 0 1 := fun s => by
    have e : f s = (fun v : Fin 1 → ℝ => v 0) ∘ fun ω => (env ω).rng.normal (stepKey kj s) 1 := rfl
    rw [e, ← Measure.map_map (measurable_pi_apply _) ((h.normal_meas _ trivial 1).mono (h.sig_le _) le_rfl), h.normal_law _ trivial 1]
    exact (measurePreserving_eval (fun _ : Fin 1 => gaussianReal 0 1) 0).map_eq
  have hind : iIndepFun f P := h.keys_indep (fun i : Fin n => stepKey kj i) (fun a b hab => Fin.ext (stepKey_injective kj hab)) f (fun i => hm i)
  have hB' : MeasurableSet ((fun t : ℝ => 1 + t * noise) ⁻¹' B) := (by fun_prop : Measurable fun t : ℝ => 1 + t * noise) hB
  have e : {ω | ∀ s < n, noiseFactor (env ω).rng noise k j s ∈ B} = ⋂ s ∈ (Finset.univ : Finset (Fin n)), f s ⁻¹' ((fun t => 1 + t * noise) ⁻¹' B) := by
    ext ω
    simp only [Set.mem_setOf_eq, Finset.mem_univ, Set.iInter_true, Set.mem_iInter, Set.mem_preimage]
    exact ⟨fun hh s => hh s s.2, fun hh s hs => hh ⟨s, hs⟩⟩
  rw [e, hind.measure_inter_preimage_eq_mul Finset.univ (fun _ _ => hB')]
  have : ∀ s : Fin n, P (f s ⁻¹' ((fun t => 1 + t * noise) ⁻¹' B)) = gaussianReal 0 1 ((fun t => 1 + t * noise) ⁻¹' B) := fun s => by rw [← hlaw s, Measure.map_apply (hm' s) hB']
  rw [Finset.prod_congr rfl fun s _ => this s]
  simp

/-- A family of events that contains every outcome of `E` from some learning rate on has at least nearly the probability of `E`. -/
theorem eventually_prob (E : Set Ω) (A : ℝ → Set Ω) (hA : ∀ ω ∈ E, ∃ lr₀ > 0, ∀ lr, 0 < lr → lr < lr₀ → ω ∈ A lr) (p : ℝ≥0∞) (hp : p < P E) : ∃ lr₀ > 0, ∀ lr, 0 < lr → lr < lr₀ → p < P (A lr) := by
  set B : ℕ → Set Ω := fun m => {ω | ∀ lr, 0 < lr → lr < 1 / ((m : ℝ) + 1) → ω ∈ A lr} with hB
  have hmono : Monotone B := by
    intro m m' hmm ω hω lr h0 h1
    refine hω lr h0 (h1.trans_le ?_)
    have : (m : ℝ) ≤ m' := by exact_mod_cast hmm
    exact one_div_le_one_div_of_le (by positivity) (by linarith)
  have hE : E ⊆ ⋃ m, B m := by
    intro ω hω
    obtain ⟨lr₀, h0, hh⟩ := hA ω hω
    obtain ⟨m, hm⟩ := exists_nat_one_div_lt h0
    exact Set.mem_iUnion.2 ⟨m, fun lr g0 g1 => hh lr g0 (g1.trans hm)⟩
  have ht := tendsto_measure_iUnion_atTop (μ := P) hmono
  obtain ⟨m, hm⟩ := (ht.eventually (lt_mem_nhds (hp.trans_le (measure_mono hE)))).exists
  refine ⟨1 / ((m : ℝ) + 1), by positivity, fun lr h0 h1 => hm.trans_le (measure_mono fun ω hω => hω lr h0 h1)⟩

/-- **C114 (noise).** In an ideal random world with `noise_level > 0`, `n ≥ 1` steps, and a chain `j` that starts at a point `x` with continuous nonzero gradient and room to the bounds: for a small enough learning rate
the chain ends *lower* than it started with a probability of nearly `Φ(-1/noise_level)^n` or more, and *higher* with a probability of nearly `Φ(1/noise_level)^n` or more; both numbers are positive.  So, other than without
noise, no learning rate is small enough to be sure that the strategy improves the log-density. -/
theorem C114_noise (h : IdealDraws past sig P env) (hnoise : 0 < noise) (n : ℕ) (hn : 0 < n) (hlen : bounds.length = 1 ∨ bounds.length = d) (k : Key) (xs : List (Pos ℝ d)) (j : ℕ) (hx : xs[j]? = some x)
    (hd : HasFDerivAt (fun y => logpdf.val y data) (∑ i, logpdf.grad x data i • (ContinuousLinearMap.proj i : (Fin d → ℝ) →L[ℝ] ℝ)) x)
    (hg : ContinuousAt (fun y => logpdf.grad y data) x) (hroom : Room bounds x) (hne : ∃ i, logpdf.grad x data i ≠ 0) :
    ∃ out : ℝ → Ω → List (Pos ℝ d), (∀ lr ω, ∃ k' lps, (adamOptimization logpdf n lr noise bounds).optimize (env ω).rng data k xs = .ok (k', out lr ω, lps)) ∧
      (∀ p < (gaussianReal 0 1 (Set.Iio (-(1 / noise)))) ^ n, ∃ lr₀ > 0, ∀ lr, 0 < lr → lr < lr₀ → p < P {ω | ∃ y, (out lr ω)[j]? = some y ∧ logpdf.val y data < logpdf.val x data}) ∧
      (∀ p < (gaussianReal 0 1 (Set.Ioi (-(1 / noise)))) ^ n, ∃ lr₀ > 0, ∀ lr, 0 < lr → lr < lr₀ → p < P {ω | ∃ y, (out lr ω)[j]? = some y ∧ logpdf.val x data < logpdf.val y data}) ∧
      0 < (gaussianReal 0 1 (Set.Iio (-(1 / noise)))) ^ n ∧ 0 < (gaussianReal 0 1 (Set.Ioi (-(1 / noise)))) ^ n := by
  set out : ℝ → Ω → List (Pos ℝ d) := fun lr ω => ((splitN (.child k 1) xs.length).zip xs).map (fun p => (adamOptimization logpdf n lr noise bounds).single (env ω).rng data p.1 p.2) with hout
  have hrun : ∀ lr ω, (adamOptimization logpdf n lr noise bounds).optimize (env ω).rng data k xs = .ok (.child k 0, out lr ω, (out lr ω).map fun x => logpdf.val x data) := fun lr ω => adam_total n (env ω).rng hlen k xs lr
  have hj : j < xs.length := (List.getElem?_eq_some_iff.1 hx).1
  have hy : ∀ lr ω, (out lr ω)[j]? = some ((adamOptimization logpdf n lr noise bounds).single (env ω).rng data (.child (.child k 1) j) x) := fun lr ω => by
    have hkj : (splitN (.child k 1) xs.length)[j]? = some (.child (.child k 1) j) := by simp [splitN, hj]
    rw [hout, List.getElem?_map, show ((splitN (.child k 1) xs.length).zip xs)[j]? = some (.child (.child k 1) j, x) from by
      rw [List.getElem?_zip_eq_some]; exact ⟨hkj, hx⟩]
    rfl
  have eneg : (fun t : ℝ => 1 + t * noise) ⁻¹' Set.Iio 0 = Set.Iio (-(1 / noise)) := by
    ext t
    simp only [Set.mem_preimage, Set.mem_Iio]
    rw [lt_neg, div_lt_iff₀ hnoise]
    constructor <;> intro h <;> linarith
  have epos : (fun t : ℝ => 1 + t * noise) ⁻¹' Set.Ioi 0 = Set.Ioi (-(1 / noise)) := by
    ext t
    simp only [Set.mem_preimage, Set.mem_Ioi]
    rw [neg_lt, lt_div_iff₀ hnoise]
    constructor <;> intro h <;> linarith
  have pneg := factors_prob (noise := noise) h k j n (Set.Iio 0) measurableSet_Iio
  have ppos := factors_prob (noise := noise) h k j n (Set.Ioi 0) measurableSet_Ioi
  rw [eneg] at pneg
  rw [epos] at ppos
  have g0 : 0 < gaussianReal 0 1 (Set.Iio (-(1 / noise))) := gauss_Iio_pos _
  refine ⟨out, fun lr ω => ⟨_, _, hrun lr ω⟩, fun p hp => ?_, fun p hp => ?_, ENNReal.pow_pos g0 n, ENNReal.pow_pos (g0.trans (gauss_lt_half _ (by positivity))) n⟩
  · rw [← pneg] at hp
    refine eventually_prob _ _ (fun ω hω => ?_) p hp
    obtain ⟨lr₀, h0, hh⟩ := C114_which_way n hn (env ω).rng k xs (logpdf := logpdf) (noise := noise) (bounds := bounds) (data := data)
    exact ⟨lr₀, h0, fun lr g0 g1 => ⟨_, hy lr ω, (hh lr g0 g1 _ _ _ (hrun lr ω) j x _ hx (hy lr ω) hg hroom hd hne).2.2 hω⟩⟩
  · rw [← ppos] at hp
    refine eventually_prob _ _ (fun ω hω => ?_) p hp
    obtain ⟨lr₀, h0, hh⟩ := C114_which_way n hn (env ω).rng k xs (logpdf := logpdf) (noise := noise) (bounds := bounds) (data := data)
    exact ⟨lr₀, h0, fun lr g0 g1 => ⟨_, hy lr ω, (hh lr g0 g1 _ _ _ (hrun lr ω) j x _ hx (hy lr ω) hg hroom hd hne).2.1 hω⟩⟩

/-- A learning rate that is not small can make things worse, also without noise: one step of size 1 from `1/10` on the log-density `-x²` overshoots the maximum. -/
theorem C114_overshoots : ∃ (t : Target ℝ Unit 1) (x y : Pos ℝ 1) (k' : Key) (lps : List ℝ), (∀ x, HasFDerivAt (fun y => t.val y ⟨(), none⟩) (∑ i, t.grad x ⟨(), none⟩ i • (ContinuousLinearMap.proj i : (Fin 1 → ℝ) →L[ℝ] ℝ)) x) ∧
    (adamOptimization t 1 1 0 [(-5, 5)]).optimize ⟨fun _ _ _ => 0, fun _ => 0, fun _ _ => [], fun _ _ _ => []⟩ ⟨(), none⟩ (.root 1) [x] = .ok (k', [y], lps) ∧ t.val y ⟨(), none⟩ < t.val x ⟨(), none⟩ := by
  set t : Target ℝ Unit 1 := ⟨fun x _ => -(x 0) ^ 2, fun x _ i => -2 * x i⟩ with ht
  set rng : Rng ℝ := ⟨fun _ _ _ => 0, fun _ => 0, fun _ _ => [], fun _ _ _ => []⟩
  set x : Pos ℝ 1 := fun _ => 1 / 10 with hx
  have hder : ∀ x, HasFDerivAt (fun y => t.val y ⟨(), none⟩) (∑ i, t.grad x ⟨(), none⟩ i • (ContinuousLinearMap.proj i : (Fin 1 → ℝ) →L[ℝ] ℝ)) x := fun x => by
    have h0 : HasFDerivAt (fun y : Fin 1 → ℝ => y 0) (ContinuousLinearMap.proj 0 : (Fin 1 → ℝ) →L[ℝ] ℝ) x := hasFDerivAt_apply 0 x
    have h := (h0.pow 2).neg
    refine h.congr_fderiv ?_
    ext v
    simp [ht]
  obtain ⟨y, hy⟩ : ∃ y, y = (adamOptimization t 1 1 0 [(-5, 5)]).single rng ⟨(), none⟩ (.child (.child (.root 1) 1) 0) x := ⟨_, rfl⟩
  have hrun : (adamOptimization t 1 1 0 [(-5, 5)]).optimize rng ⟨(), none⟩ (.root 1) [x] = .ok (.child (.root 1) 0, [y], [t.val y ⟨(), none⟩]) := by rw [hy]; rfl
  refine ⟨t, x, y, _, _, hder, hrun, ?_⟩
  have := C77_first_step t 1 0 [(-5, 5)] rng ⟨(), none⟩ (.root 1) [x] _ [y] _ one_pos hrun 0 x y rfl rfl (fun z hz i b hb => by
    simp [boundOf] at hb
    subst hb
    have := abs_le.1 (hz i)
    simp only [hx] at this
    constructor <;> linarith) 0
  have e : firstFactor rng 0 (.root 1) 0 = 1 := by simp [firstFactor]
  rw [e] at this
  have e2 : t.grad x ⟨(), none⟩ 0 = -(1 / 5) := by simp [ht, hx]; norm_num
  rw [e2] at this
  show -(y 0) ^ 2 < -(x 0) ^ 2
  rw [this]
  simp only [hx]
  norm_num [abs_of_neg]

/-- Non-vacuity: two chains on `-x²/2 - y²/2` in the square `[-5, 5]²`, starting at `(1, 2)` and `(-3, 0)`; without noise there is a learning rate below which a hundred steps improve both. -/
example : ∃ lr₀ > 0, ∀ lr, 0 < lr → lr < lr₀ → ∃ k' y y' lps, (adamOptimization (⟨fun x _ => -(x 0) ^ 2 / 2 - (x 1) ^ 2 / 2, fun x _ i => -x i⟩ : Target ℝ Unit 2) 100 lr 0 [(-5, 5)]).optimize
    ⟨fun _ _ _ => 0, fun _ => 0, fun _ _ => [], fun _ _ _ => []⟩ ⟨(), none⟩ (.root 1) [![1, 2], ![-3, 0]] = .ok (k', [y, y'], lps) ∧ (y 0) ^ 2 / 2 + (y 1) ^ 2 / 2 < 5 / 2 ∧ (y' 0) ^ 2 / 2 + (y' 1) ^ 2 / 2 < 9 / 2 := by
  set t : Target ℝ Unit 2 := ⟨fun x _ => -(x 0) ^ 2 / 2 - (x 1) ^ 2 / 2, fun x _ i => -x i⟩ with ht
  have hder : ∀ x, HasFDerivAt (fun y => t.val y ⟨(), none⟩) (∑ i, t.grad x ⟨(), none⟩ i • (ContinuousLinearMap.proj i : (Fin 2 → ℝ) →L[ℝ] ℝ)) x := fun x => by
    have hc : ∀ i, HasFDerivAt (fun y : Fin 2 → ℝ => y i) (ContinuousLinearMap.proj i : (Fin 2 → ℝ) →L[ℝ] ℝ) x := fun i => hasFDerivAt_apply i x
    have h := (((hc 0).pow 2).neg.mul_const (1 / 2)).sub (((hc 1).pow 2).mul_const (1 / 2))
    refine (h.congr_fderiv ?_).congr_of_eventuallyEq (Eventually.of_forall fun y => by simp [ht]; ring)
    ext v
    simp [ht, Fin.sum_univ_two]
    ring
  have hcont : ∀ x, ContinuousAt (fun y => t.grad y ⟨(), none⟩) x := fun x => by
    have : Continuous fun y : Fin 2 → ℝ => t.grad y ⟨(), none⟩ := continuous_pi fun i => (continuous_apply i).neg
    exact this.continuousAt
  obtain ⟨lr₀, h0, hh⟩ := C114_climbs (logpdf := t) (bounds := [(-5, 5)]) (data := ⟨(), none⟩) 100 (by norm_num) ⟨fun _ _ _ => 0, fun _ => 0, fun _ _ => [], fun _ _ _ => []⟩ (.root 1) [![1, 2], ![-3, 0]]
  refine ⟨lr₀, h0, fun lr g0 g1 => ?_⟩
  obtain ⟨y, hy⟩ : ∃ y, y = (adamOptimization t 100 lr 0 [(-5, 5)]).single ⟨fun _ _ _ => 0, fun _ => 0, fun _ _ => [], fun _ _ _ => []⟩ ⟨(), none⟩ (.child (.child (.root 1) 1) 0) ![1, 2] := ⟨_, rfl⟩
  obtain ⟨y', hy'⟩ : ∃ y, y = (adamOptimization t 100 lr 0 [(-5, 5)]).single ⟨fun _ _ _ => 0, fun _ => 0, fun _ _ => [], fun _ _ _ => []⟩ ⟨(), none⟩ (.child (.child (.root 1) 1) 1) ![-3, 0] := ⟨_, rfl⟩
  have hrun : (adamOptimization t 100 lr 0 [(-5, 5)]).optimize ⟨fun _ _ _ => 0, fun _ => 0, fun _ _ => [], fun _ _ _ => []⟩ ⟨(), none⟩ (.root 1) [![1, 2], ![-3, 0]] =
      .ok (.child (.root 1) 0, [y, y'], [t.val y ⟨(), none⟩, t.val y' ⟨(), none⟩]) := by rw [adam_total 100 _ (Or.inl rfl), hy, hy']; rfl
  have room : ∀ x : Fin 2 → ℝ, (∀ i, -5 < x i ∧ x i < 5) → Room [(-5, 5)] x := fun x hx i b hb => by
    simp [boundOf] at hb
    subst hb
    exact hx i
  refine ⟨_, y, y', _, hrun, ?_, ?_⟩
  · have := (hh lr g0 g1 _ _ _ hrun 0 ![1, 2] y rfl rfl (hcont _) (room _ fun i => by fin_cases i <;> norm_num) (hder _) ⟨0, by simp [ht]⟩).2
    simp [ht] at this
    linarith
  · have := (hh lr g0 g1 _ _ _ hrun 1 ![-3, 0] y' rfl rfl (hcont _) (room _ fun i => by fin_cases i <;> norm_num) (hder _) ⟨0, by simp [ht]⟩).2
    simp [ht] at this
    linarith

end
end FlowMC
