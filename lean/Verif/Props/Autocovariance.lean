import Verif.Props.SplitCalls
import Verif.Lemmas.Autocov
/-
C121: in equilibrium, autocovariances of the recorded rows behave as estimators of effective sample sizes assume.
-/
open MeasureTheory ProbabilityTheory
open scoped ENNReal
set_option linter.unusedSectionVars false
namespace FlowMC
namespace Spec

/-- The autocovariance about `c` of a sequence `F` of random numbers between its terms `r` and `r + l`. -/
noncomputable def autocovariance {Ω : Type} [MeasurableSpace Ω] (P : Measure Ω) (F : ℕ → Ω → ℝ) (c : ℝ) (r l : ℕ) : ℝ := ∫ ω, (F r ω - c) * (F (r + l) ω - c) ∂P

end Spec
open Spec

theorem centred_square {X : Type} [MeasurableSpace X] {μ : Measure X} [IsProbabilityMeasure μ] {g : X → ℝ} (hg : Measurable g) (hg2 : Integrable (fun x => g x ^ 2) μ) (c : ℝ) : Integrable (fun x => (g x - c) * (g x - c)) μ := by
  refine Integrable.mono' (g := fun x => 2 * g x ^ 2 + 2 * c ^ 2) ((hg2.const_mul 2).add (integrable_const _)) (by fun_prop) (Filter.Eventually.of_forall fun x => ?_)
  rw [Real.norm_eq_abs, abs_of_nonneg (mul_self_nonneg _)]
  nlinarith [sq_nonneg (g x + c)]

variable {Ω D M O : Type} {d : ℕ}
variable {past : MeasurableSpace Ω} {sig : Key → MeasurableSpace Ω} [mΩ : MeasurableSpace Ω] {P : Measure Ω} [IsProbabilityMeasure P] {env : Ω → Env ℝ D d M O} [BufNum ℝ]

section
variable (k : Key) (h : IdealOn (Desc k) past sig P env) (r0 : String → Option (Resource ℝ D d M O)) (data : Data D) (μ : Measure (Pos ℝ d)) [IsProbabilityMeasure μ]
    (strats : String → Option (Strategy ℝ D d M O)) (names : List String) (hs : ∀ name ∈ names, ∀ s, strats name = some s → ExactStrategy (Desc k) P sig env r0 data μ s)
    (w w' w1 : Ω → World ℝ D d M O) (hkey : ∀ ω, (w ω).key = k) (hres : ∀ ω, KeepsSamplers r0 (w ω).heap) (i : ℕ) (X : Ω → Pos ℝ d) (hX : ∀ ω, (w ω).xs[i]? = some (X ω))
    (hXm : Measurable[past] X) (hXl : P.map X = μ) (hr : ∀ ω, Completes (env ω) strats data names (w ω) (w' ω))
    (s : TakeSteps) (hstep : ExactStepper (Desc k) P sig env r0 data μ s) (hn : 0 < s.nSteps)
    (hcall : ∀ ω, s.run (env ω) (w' ω).key (w' ω).xs data (w' ω).heap = (.ok ((w1 ω).key, (w1 ω).xs), (w1 ω).heap)) (n cap cur : ℕ) (hw : ∀ ω, (w' ω).xs.length = n)
    (Pn L A : String) (bP bL bA : Ω → Buffer ℝ) (hpt : ∀ ω, PointsAt (w' ω).heap s Pn L A) (hrec : ∀ ω, Recorders (w' ω).heap n cap Pn L A (bP ω) (bL ω) (bA ω))
    (hcur : ∀ ω, (w' ω).heap.pos s.ident = cur) (hfit : cur + ceilDiv' s.nSteps s.thinning ≤ cap)
    (g : Pos ℝ d → ℝ) (hg : Measurable g) (hg2 : Integrable (fun x => g x ^ 2) μ) (c : ℝ)
include h hs hkey hres hX hXm hXl hr hstep hn hcall hw hpt hrec hcur hfit hg hg2

/-- **C121.** In equilibrium, a call of an exact stepper with any number of steps and any thinning records rows `0, …, C - 1`.  For every function `g` with finite second moment under the target and every number `c` (such as the
mean of `g`), let `γ r l` be the autocovariance about `c` of the values of `g` at rows `r` and `r + l`.  All of these expectations exist; those at even lags are not negative; the sum of those at lags `2k` and `2k + 1` is not
negative; and it is never smaller than the sum of the next two. -/
theorem C121_autocovariances : ∃ b : Ω → Buffer ℝ, (∀ ω, (w1 ω).heap.res Pn = some (.buffer (b ω))) ∧ ∀ F : ℕ → Ω → ℝ, (∀ r ω, F r ω = g fun a => (b ω).data.get [i, cur + r, a]) →
    (∀ r l, r + l < ceilDiv' s.nSteps s.thinning → Integrable (fun ω => (F r ω - c) * (F (r + l) ω - c)) P) ∧
    (∀ r k, r + 2 * k < ceilDiv' s.nSteps s.thinning → 0 ≤ autocovariance P F c r (2 * k)) ∧
    (∀ r k, r + (2 * k + 1) < ceilDiv' s.nSteps s.thinning → 0 ≤ autocovariance P F c r (2 * k) + autocovariance P F c r (2 * k + 1)) ∧
    (∀ r k, r + (2 * k + 3) < ceilDiv' s.nSteps s.thinning →
      autocovariance P F c r (2 * k + 2) + autocovariance P F c r (2 * k + 3) ≤ autocovariance P F c r (2 * k) + autocovariance P F c r (2 * k + 1)) := by
  obtain ⟨k', S', hc⟩ := exact_chain k h r0 data μ strats names hs w w' hkey hres i X hX hXm hXl hr
  obtain ⟨ν, hν, step, hm, hinv, hrev, hrows⟩ := exactStepper_paths h hstep
  obtain ⟨ht, Z, hZ, hcell⟩ := stepper_path_rows h hc s hm (hrows s.nSteps s.thinning) w1 hcall n cap cur hn hw Pn L A bP bL bA hpt hrec hcur hfit
  choose b hb hcell using hcell
  refine ⟨b, hb, fun F hF => ?_⟩
  have hle : ∀ j < ceilDiv' s.nSteps s.thinning, j * s.thinning + 1 ≤ s.nSteps := fun j hj => by
    have h1 := Nat.div_mul_le_self (s.nSteps + s.thinning - 1) s.thinning
    have h2 : (j + 1) * s.thinning ≤ (s.nSteps + s.thinning - 1) / s.thinning * s.thinning := Nat.mul_le_mul_right _ hj
    rw [Nat.add_mul] at h2
    omega
  have e : ∀ r l, r + l < ceilDiv' s.nSteps s.thinning → (fun ω => (F r ω - c) * (F (r + l) ω - c)) = fun ω => (g (Z (r * s.thinning + 1) ω) - c) * (g (Z (r * s.thinning + 1 + l * s.thinning) ω) - c) := by
    intro r l hl
    funext ω
    rw [hF, hF, funext (hcell ω r (by omega)), funext (hcell ω (r + l) hl), show (r + l) * s.thinning + 1 = r * s.thinning + 1 + l * s.thinning by ring]
  have hle' : ∀ r l, r + l < ceilDiv' s.nSteps s.thinning → r * s.thinning + 1 + l * s.thinning ≤ s.nSteps := fun r l hl => by
    have := hle _ hl
    rw [Nat.add_mul] at this
    omega
  have e' : ∀ r l, r + l < ceilDiv' s.nSteps s.thinning → autocovariance P F c r l = ∫ ω, (g (Z (r * s.thinning + 1) ω) - c) * (g (Z (r * s.thinning + 1 + l * s.thinning) ω) - c) ∂P :=
    fun r l hl => congrArg (fun f : Ω → ℝ => ∫ ω, f ω ∂P) (e r l hl)
  have hgc : Measurable fun x => g x - c := hg.sub_const c
  have hg2' := centred_square hg hg2 c
  refine ⟨fun r l hl => ?_, fun r k hk => ?_, fun r k hk => ?_, fun r k hk => ?_⟩
  · rw [e r l hl]
    exact (hZ.autocov hm hinv hrev hgc hg2' _ _ (hle' r l hl)).1
  · have h1 := hle' _ _ hk
    rw [e' _ _ hk, show 2 * k * s.thinning = 2 * (k * s.thinning) by ring] at *
    exact hZ.autocov_even hm hinv hrev hgc hg2' _ _ (by omega)
  · have h1 := hle' _ _ hk
    rw [e' _ _ (show r + 2 * k < _ by omega), e' _ _ hk]
    rw [show 2 * k * s.thinning = 2 * (k * s.thinning) by ring, show (2 * k + 1) * s.thinning = 2 * (k * s.thinning) + s.thinning by ring] at *
    exact hZ.autocov_pairs hm hinv hrev hgc hg2' _ _ _ (by omega)
  · have h1 := hle' _ _ hk
    rw [e' _ _ (show r + 2 * k < _ by omega), e' _ _ (show r + (2 * k + 1) < _ by omega), e' _ _ (show r + (2 * k + 2) < _ by omega), e' _ _ hk]
    rw [show (2 * k + 3) * s.thinning = 2 * (k * s.thinning) + s.thinning + s.thinning + s.thinning by ring] at *
    rw [show 2 * k * s.thinning = 2 * (k * s.thinning) by ring, show (2 * k + 1) * s.thinning = 2 * (k * s.thinning) + s.thinning by ring, show (2 * k + 2) * s.thinning = 2 * (k * s.thinning) + s.thinning + s.thinning by ring]
    exact hZ.autocov_monotone hm hinv hrev hgc hg2' _ _ _ (by omega)
end

end FlowMC
