import Verif.Lemmas.Ideal
import Verif.Lemmas.Gaussian
import Verif.Props.Tempering
import Verif.Props.Metropolis
import Mathlib.Logic.Equiv.Fin.Basic
/-
C31: replica exchange leaves the joint tempered distribution invariant.
-/
open MeasureTheory ProbabilityTheory
open scoped ENNReal
set_option linter.unusedSectionVars false
namespace FlowMC
open Spec

variable {Ω D M O : Type} {d n : ℕ}

/-- The joint tempered distribution of `n` replicas, `∏ i, exp (logL (x i) / T i + logprior (x i))`, up to normalisation. -/
noncomputable def Spec.jointTempered (l : TemperedPDF ℝ D d) (data : Data D) (T : Fin n → ℝ) : Measure (Fin n → Pos ℝ d) :=
  targetMeasure (fun xs => ∑ i, (l.base.logPdf.val (xs i) data / T i + l.logPrior.val (xs i) data))

/-- Metropolis step that proposes the image under a volume-preserving involution. -/
theorem metropolis_swap {X : Type} [MeasureSpace X] [SFinite (volume : Measure X)] (h : X → ℝ) (hh : Measurable h) (S : X → X)
    (hS : MeasurePreserving S (volume : Measure X) volume) (hSS : ∀ x, S (S x) = x) (r : X → ℝ) (hr : ∀ x, h (S x) = h x + r x) :
    Measurable (fun p : X × ℝ => if Real.log p.2 < r p.1 then S p.1 else p.1) ∧
    Reversible (targetMeasure h) unif (fun u x => if Real.log u < r x then S x else x) := by
  have hSm := hS.measurable
  have hr' : r = fun x => h (S x) - h x := by funext x; rw [hr]; ring
  have hrm : Measurable r := by rw [hr']; fun_prop
  haveI : SFinite (targetMeasure h) := by unfold targetMeasure; infer_instance
  have hacc : MeasurableSet {q : (X × Unit) × ℝ | Real.log q.2 < r q.1.1} := measurableSet_lt (by fun_prop) (by fun_prop)
  have key := metropolis (targetMeasure h) (Measure.dirac ()) (fun z => S z.1) (by fun_prop) (fun q => Real.log q.2 < r q.1.1) hacc
    (fun z => ENNReal.ofReal (min 1 (Real.exp (r z.1)))) (by fun_prop) (fun z => unif_accept (r z.1)) ?_
  · have hstep : Measurable (fun p : X × ℝ => if Real.log p.2 < r p.1 then S p.1 else p.1) :=
      Measurable.ite (measurableSet_lt (by fun_prop) (by fun_prop)) (by fun_prop) measurable_fst
    refine ⟨hstep, ?_⟩
    have e : (targetMeasure h).prod unif = ((targetMeasure h).prod ((Measure.dirac ()).prod unif)).map (Prod.map id Prod.snd) := by
      rw [← Measure.map_prod_map _ _ measurable_id measurable_snd, Measure.map_id, Measure.map_snd_prod]; simp
    unfold Reversible at *
    rw [e, Measure.map_map (measurable_fst.prodMk hstep) (by fun_prop), Measure.map_map (hstep.prodMk measurable_fst) (by fun_prop)]
    exact key
  · have e : ((targetMeasure h).prod (Measure.dirac ())).withDensity (fun z => ENNReal.ofReal (min 1 (Real.exp (r z.1)))) =
        ((volume : Measure X).prod (Measure.dirac ())).withDensity (fun z => ENNReal.ofReal (min (Real.exp (h z.1)) (Real.exp (h (S z.1))))) := by
      rw [targetMeasure, prod_withDensity_left (by fun_prop), ← withDensity_mul _ (by fun_prop) (by fun_prop)]
      congr 1
      funext z
      rw [Pi.mul_apply, ← ENNReal.ofReal_mul (Real.exp_pos _).le, mul_min_of_nonneg _ _ (Real.exp_pos _).le, mul_one, ← Real.exp_add, hr]
    rw [e]
    refine metropolis_involution _ (fun z : X × Unit => (S z.1, z.2)) (hS.prod (MeasurePreserving.id _)) _ (by fun_prop) (fun z => ?_) _ _ (by fun_prop) (by fun_prop)
      (fun z => rfl) (fun z => by simp [hSS])
    simp only [hSS, min_comm]

/-- Exchange the entries `i` and `i + 1`. -/
def swapFin {α : Type} (i : ℕ) (h : i + 1 < n) (xs : Fin n → α) : Fin n → α := fun j => xs (Equiv.swap ⟨i, by omega⟩ ⟨i + 1, h⟩ j)

theorem swapAt_ofFn {α : Type} (i : ℕ) (h : i + 1 < n) (xs : Fin n → α) : swapAt i (List.ofFn xs) = List.ofFn (swapFin i h xs) := by
  have h0 : i < n := by omega
  apply List.ext_getElem?
  intro j
  simp only [swapAt, List.getElem?_ofFn, h0, h, dif_pos, List.getElem?_set, List.length_set, List.length_ofFn, swapFin]
  by_cases hj : j < n
  · rw [dif_pos hj]
    by_cases h1 : i + 1 = j
    · subst h1
      simp [h, Equiv.swap_apply_right]
    · rw [if_neg h1]
      by_cases h2 : i = j
      · subst h2
        simp [h0, Equiv.swap_apply_left]
      · rw [if_neg h2, dif_pos hj, Equiv.swap_apply_of_ne_of_ne (by simpa [Fin.ext_iff] using Ne.symm h2) (by simpa [Fin.ext_iff] using Ne.symm h1)]
  · rw [dif_neg hj, dif_neg hj, if_neg (by omega), if_neg (by omega)]

theorem swapFin_preserving (i : ℕ) (h : i + 1 < n) : MeasurePreserving (swapFin i h : (Fin n → Pos ℝ d) → _) volume volume := by
  have := volume_measurePreserving_piCongrLeft (fun _ : Fin n => Pos ℝ d) (Equiv.swap (⟨i, by omega⟩ : Fin n) ⟨i + 1, h⟩)
  convert this using 1
  funext xs j
  obtain ⟨j, rfl⟩ := (Equiv.swap (⟨i, by omega⟩ : Fin n) ⟨i + 1, h⟩).surjective j
  rw [MeasurableEquiv.coe_piCongrLeft, Equiv.piCongrLeft_apply_apply]
  simp [swapFin]

theorem sum_swap {f : Fin n → Pos ℝ d → ℝ} (i : ℕ) (h : i + 1 < n) (xs : Fin n → Pos ℝ d) :
    ∑ j, f j (swapFin i h xs j) = ∑ j, f j (xs j) + (f ⟨i, by omega⟩ (xs ⟨i + 1, h⟩) + f ⟨i + 1, h⟩ (xs ⟨i, by omega⟩) -
      f ⟨i, by omega⟩ (xs ⟨i, by omega⟩) - f ⟨i + 1, h⟩ (xs ⟨i + 1, h⟩)) := by
  set a : Fin n := ⟨i, by omega⟩ with ha
  set b : Fin n := ⟨i + 1, h⟩ with hb
  have hab : a ≠ b := by simp [ha, hb, Fin.ext_iff]
  have key : ∀ g : Fin n → ℝ, ∑ j, g j = g a + g b + ∑ j ∈ (Finset.univ.erase a).erase b, g j := by
    intro g
    rw [← Finset.add_sum_erase _ _ (Finset.mem_univ a), ← Finset.add_sum_erase _ _ (Finset.mem_erase.2 ⟨hab.symm, Finset.mem_univ b⟩), add_assoc]
  rw [key (fun j => f j (swapFin i h xs j)), key (fun j => f j (xs j))]
  have h1 : swapFin i h xs a = xs b := by simp [swapFin, ha, hb]
  have h2 : swapFin i h xs b = xs a := by simp [swapFin, ha, hb]
  have h3 : ∑ j ∈ (Finset.univ.erase a).erase b, f j (swapFin i h xs j) = ∑ j ∈ (Finset.univ.erase a).erase b, f j (xs j) := by
    refine Finset.sum_congr rfl fun j hj => ?_
    simp only [Finset.mem_erase, Finset.mem_univ, and_true] at hj
    simp only [swapFin]
    rw [Equiv.swap_apply_of_ne_of_ne hj.2 hj.1]
  rw [h1, h2, h3]; ring

/-- One attempted exchange as a function of its uniform number. -/
noncomputable def pairStep (l : TemperedPDF ℝ D d) (data : Data D) (T : Fin n → ℝ) (i : ℕ) (h : i + 1 < n) (u : ℝ) (xs : Fin n → Pos ℝ d) : Fin n → Pos ℝ d :=
  if Real.log u < (1 / T ⟨i + 1, h⟩ - 1 / T ⟨i, by omega⟩) * (l.base.logPdf.val (xs ⟨i, by omega⟩) data - l.base.logPdf.val (xs ⟨i + 1, h⟩) data) then swapFin i h xs else xs

theorem exchBody_ofFn (l : TemperedPDF ℝ D d) (data : Data D) (T : Fin n → ℝ) (i : ℕ) (h : i + 1 < n) (u : ℝ) (xs : Fin n → Pos ℝ d) :
    (exchBody (List.ofFn T) u i ⟨List.ofFn xs, (List.ofFn xs).map (fun x => l.call x data)⟩).1 =
      ⟨List.ofFn (pairStep l data T i h u xs), (List.ofFn (pairStep l data T i h u xs)).map (fun x => l.call x data)⟩ := by
  have h0 : i < n := by omega
  have hr : exchRatio (List.ofFn T) ((List.ofFn xs).map (fun x => l.call x data)) i =
      (1 / T ⟨i + 1, h⟩ - 1 / T ⟨i, h0⟩) * (l.base.logPdf.val (xs ⟨i, h0⟩) data - l.base.logPdf.val (xs ⟨i + 1, h⟩) data) := by
    simp only [exchRatio, List.getD_eq_getElem?_getD, List.getElem?_map, List.getElem?_ofFn, h0, h, dif_pos, Option.getD_some, Option.map_some]
    rfl
  simp only [exchBody, hr, pairStep]
  by_cases hc : Real.log u < (1 / T ⟨i + 1, h⟩ - 1 / T ⟨i, h0⟩) * (l.base.logPdf.val (xs ⟨i, h0⟩) data - l.base.logPdf.val (xs ⟨i + 1, h⟩) data)
  · have : acceptTest u ((1 / T ⟨i + 1, h⟩ - 1 / T ⟨i, h0⟩) * (l.base.logPdf.val (xs ⟨i, h0⟩) data - l.base.logPdf.val (xs ⟨i + 1, h⟩) data)) = true := by
      simpa [acceptTest, FCmp.blt, Transc.log] using hc
    rw [if_pos this, if_pos this, if_pos hc, ← swapAt_map, swapAt_ofFn i h]
  · have : acceptTest u ((1 / T ⟨i + 1, h⟩ - 1 / T ⟨i, h0⟩) * (l.base.logPdf.val (xs ⟨i, h0⟩) data - l.base.logPdf.val (xs ⟨i + 1, h⟩) data)) = false := by
      simpa [acceptTest, FCmp.blt, Transc.log] using hc
    rw [this, if_neg hc]; rfl

theorem pairStep_reversible (l : TemperedPDF ℝ D d) (data : Data D) (hL : Measurable (fun x => l.base.logPdf.val x data)) (hp : Measurable (fun x => l.logPrior.val x data))
    (T : Fin n → ℝ) (i : ℕ) (h : i + 1 < n) :
    Measurable (fun p : (Fin n → Pos ℝ d) × ℝ => pairStep l data T i h p.2 p.1) ∧ Reversible (jointTempered l data T) unif (pairStep l data T i h) := by
  refine metropolis_swap (fun xs : Fin n → Pos ℝ d => ∑ i, (l.base.logPdf.val (xs i) data / T i + l.logPrior.val (xs i) data)) ?_ (swapFin i h) (swapFin_preserving i h) (fun xs => ?_)
    (fun xs => (1 / T ⟨i + 1, h⟩ - 1 / T ⟨i, by omega⟩) * (l.base.logPdf.val (xs ⟨i, by omega⟩) data - l.base.logPdf.val (xs ⟨i + 1, h⟩) data)) (fun xs => ?_)
  · refine Finset.measurable_sum _ fun j _ => ?_
    exact ((hL.comp (measurable_pi_apply j)).div_const _).add (hp.comp (measurable_pi_apply j))
  · funext j; simp [swapFin]
  · rw [sum_swap (f := fun j x => l.base.logPdf.val x data / T j + l.logPrior.val x data)]
    ring

/-- **C31, one pair.** Attempting to exchange the replicas `i` and `i + 1` with a uniform number `u` is reversible with respect to the joint tempered
distribution. -/
theorem C31_pair_reversible (l : TemperedPDF ℝ D d) (data : Data D) (hL : Measurable (fun x => l.base.logPdf.val x data))
    (hp : Measurable (fun x => l.logPrior.val x data)) (T : Fin n → ℝ) (i : ℕ) (h : i + 1 < n) :
    ∃ step : ℝ → (Fin n → Pos ℝ d) → Fin n → Pos ℝ d,
      (∀ u xs, (exchBody (List.ofFn T) u i ⟨List.ofFn xs, (List.ofFn xs).map (fun x => l.call x data)⟩).1.positions = List.ofFn (step u xs)) ∧
      Measurable (fun p : (Fin n → Pos ℝ d) × ℝ => step p.2 p.1) ∧
      Reversible (jointTempered l data T) unif step ∧ DetailedBalance (jointTempered l data T) unif step ∧ Invariant (jointTempered l data T) unif step := by
  obtain ⟨hm, hr⟩ := pairStep_reversible l data hL hp T i h
  haveI : SFinite (jointTempered l data T) := by unfold jointTempered targetMeasure; infer_instance
  exact ⟨pairStep l data T i h, fun u xs => by rw [exchBody_ofFn l data T i h], hm, hr, hr.detailedBalance hm, hr.invariant hm⟩

variable {past : MeasurableSpace Ω} {sig : Key → MeasurableSpace Ω} [mΩ : MeasurableSpace Ω] {P : Measure Ω} [IsProbabilityMeasure P] {env : Ω → Env ℝ D d M O}

/-- A sweep over the pairs `i, i+1, …` started from what is known in `S`. -/
theorem exchScan_law (h : IdealDraws past sig P env) (l : TemperedPDF ℝ D d) (data : Data D) (hL : Measurable (fun x => l.base.logPdf.val x data))
    (hp : Measurable (fun x => l.logPrior.val x data)) (T : Fin n → ℝ) (μ : Measure (Fin n → Pos ℝ d)) (hμ : ∃ Z : ℝ≥0∞, μ = Z • jointTempered l data T) (m : ℕ) :
    ∀ (i : ℕ) (_ : i + m < n ∨ m = 0) (k : Key) (S : Set (Option Key)) (_ : Disjoint S (descSet k)) (X : Ω → Fin n → Pos ℝ d)
      (_ : Measurable[info past sig S] X) (_ : P.map X = μ),
    ∃ Y : Ω → Fin n → Pos ℝ d, (∀ ω, (exchScan (env ω).rng (List.ofFn T) m i k ⟨List.ofFn (X ω), (List.ofFn (X ω)).map (fun x => l.call x data)⟩).1.positions = List.ofFn (Y ω)) ∧
      Measurable[info past sig (S ∪ descSet k)] Y ∧ P.map Y = μ := by
  induction m with
  | zero => intro i _ k S hS X hX hlaw; exact ⟨X, fun _ => rfl, hX.mono (info_mono Set.subset_union_left) le_rfl, hlaw⟩
  | succ m ih =>
    intro i hi k S hS X hX hlaw
    have hi' : i + 1 < n := by omega
    obtain ⟨hm, hr⟩ := pairStep_reversible l data hL hp T i hi'
    haveI : SFinite (jointTempered l data T) := by unfold jointTempered targetMeasure; infer_instance
    have hinv : Invariant μ unif (pairStep l data T i hi') := by
      obtain ⟨Z, rfl⟩ := hμ
      exact (hr.invariant hm).smul Z
    have um : Measurable[info past sig (descSet (.child k 1))] (fun ω => (env ω).rng.uniform (.child k 1)) :=
      (h.uniform_meas _ trivial).mono (sig_le_info (mem_descSet .refl)) le_rfl
    have hX' : Measurable[info past sig (S ∪ descSet (.child k 1))] (fun ω => pairStep l data T i hi' ((env ω).rng.uniform (.child k 1)) (X ω)) :=
      hm.comp ((hX.mono (info_mono Set.subset_union_left) le_rfl).prodMk (um.mono (info_mono Set.subset_union_right) le_rfl))
    have hlaw' := h.step (hS.mono_right descSet_child) hX um hlaw (h.uniform_law _ trivial) hm hinv
    obtain ⟨Y, hY, hYm, hYl⟩ := ih (i + 1) (by omega) (.child k 0) (S ∪ descSet (.child k 1))
      (Set.disjoint_union_left.2 ⟨hS.mono_right descSet_child, descSet_disjoint (by decide)⟩) _ hX' hlaw'
    refine ⟨Y, fun ω => ?_, hYm.mono (info_mono ?_) le_rfl, hYl⟩
    · simp only [exchScan, split]
      rw [exchBody_ofFn l data T i hi', hY]
    · exact Set.union_subset (Set.union_subset Set.subset_union_left (descSet_child.trans Set.subset_union_right)) (descSet_child.trans Set.subset_union_right)

/-- **C31, the sweep.** Replicas with the joint tempered distribution, independent of the draws of the sweep, have the joint tempered distribution after
the sweep. -/
theorem C31_sweep_invariant (h : IdealDraws past sig P env) (l : TemperedPDF ℝ D d) (data : Data D) (hL : Measurable (fun x => l.base.logPdf.val x data))
    (hp : Measurable (fun x => l.logPrior.val x data)) (T : Fin n → ℝ) (μ : Measure (Fin n → Pos ℝ d)) (hμ : ∃ Z : ℝ≥0∞, μ = Z • jointTempered l data T) (k : Key)
    (X : Ω → Fin n → Pos ℝ d) (hX : Measurable[past] X) (hlaw : P.map X = μ) :
    ∃ Y : Ω → Fin n → Pos ℝ d, (∀ ω, (exchange (env ω).rng l data (List.ofFn T) k (List.ofFn (X ω))).1.positions = List.ofFn (Y ω)) ∧
      Measurable Y ∧ P.map Y = μ := by
  have hS : Disjoint ({none} : Set (Option Key)) (descSet k) := by
    rw [Set.disjoint_left]; rintro o ho ⟨a, rfl, _⟩; simp at ho
  obtain ⟨Y, h1, h2, h3⟩ := exchScan_law h l data hL hp T μ hμ (n - 1) 0 (by omega) k {none} hS X (hX.mono (past_le_info (by simp)) le_rfl) hlaw
  refine ⟨Y, fun ω => ?_, h2.mono (h.info_le _) le_rfl, h3⟩
  simp only [exchange, List.length_ofFn]
  exact h1 ω

end FlowMC
