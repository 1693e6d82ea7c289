import Verif.Props.Collapse
import Verif.Model.TrainStep
import Verif.Model.Loss
/-
C92: over the real numbers the flows, the statistics, the loss and the optimizer of `Model/GenFlow.lean` are those of the other model files; examples.
-/
set_option linter.unusedSectionVars false
namespace FlowMC
open Spec
noncomputable section
open Classical

variable {d : ℕ}

/-- A coupling layer of the real model. -/
def CouplingLayer.gen (l : CouplingLayer d) : Gen.Layer ℝ d := ⟨l.bij.fwd, l.bij.inv, l.mask⟩

/-- A RealNVP. -/
def RealNVP.gen (rng : Rng ℝ) (m : RealNVP d) : Gen.Flow ℝ d where
  layers := m.layers.map fun l => l.coupling.gen
  invLayers := m.layers.reverse.map fun l => l.coupling.gen
  baseLogProb x := isoNormLogpdf x (fun _ => 0) 1
  baseSample := m.base.sample rng
  dataMean := m.dataMean
  dataVar := m.dataVar

/-- A spline flow: two coupling layers per layer, in the same order in both directions. -/
def SplineFlow.gen {K : ℕ} (tiny : ℝ) (rng : Rng ℝ) (m : SplineFlow d K) : Gen.Flow ℝ d where
  layers := m.layers.flatMap fun l => [l.affine.gen, (l.spline tiny m.cfg).gen]
  invLayers := m.layers.reverse.flatMap fun l => [l.affine.gen, (l.spline tiny m.cfg).gen]
  baseLogProb := m.base.logProb
  baseSample := m.base.sample rng
  dataMean := m.dataMean
  dataVar := m.dataVar

theorem gen_layers_realNVP (ls : List (NVPLayer d)) (s : Pos ℝ d × ℝ) :
    (scan (fun (s : Pos ℝ d × ℝ) (l : NVPLayer d) => let r := l.coupling.forward s.1; ((r.1, s.2 + r.2), ())) s ls).1 =
      (scan (fun (s : Pos ℝ d × ℝ) (l : Gen.Layer ℝ d) => let r := l.forward s.1; ((r.1, s.2 + r.2), ())) s (ls.map fun l => l.coupling.gen)).1 ∧
    (scan (fun (s : Pos ℝ d × ℝ) (l : NVPLayer d) => let r := l.coupling.inverse s.1; ((r.1, s.2 + r.2), ())) s ls).1 =
      (scan (fun (s : Pos ℝ d × ℝ) (l : Gen.Layer ℝ d) => let r := l.inverse s.1; ((r.1, s.2 + r.2), ())) s (ls.map fun l => l.coupling.gen)).1 := by
  constructor
  · induction ls generalizing s with
    | nil => rfl
    | cons l ls ih => simp only [List.map_cons, scan]; exact ih _
  · induction ls generalizing s with
    | nil => rfl
    | cons l ls ih => simp only [List.map_cons, scan]; exact ih _

theorem gen_layers_spline {K : ℕ} (tiny : ℝ) (c : SplineCfg) (ls : List (SplineLayer d K)) (s : Pos ℝ d × ℝ) :
    (scan (fun (s : Pos ℝ d × ℝ) (l : SplineLayer d K) => let a := l.affine.forward s.1; let b := (l.spline tiny c).forward a.1; ((b.1, s.2 + a.2 + b.2), ())) s ls).1 =
      (scan (fun (s : Pos ℝ d × ℝ) (l : Gen.Layer ℝ d) => let r := l.forward s.1; ((r.1, s.2 + r.2), ())) s (ls.flatMap fun l => [l.affine.gen, (l.spline tiny c).gen])).1 ∧
    (scan (fun (s : Pos ℝ d × ℝ) (l : SplineLayer d K) => let a := l.affine.inverse s.1; let b := (l.spline tiny c).inverse a.1; ((b.1, s.2 + a.2 + b.2), ())) s ls).1 =
      (scan (fun (s : Pos ℝ d × ℝ) (l : Gen.Layer ℝ d) => let r := l.inverse s.1; ((r.1, s.2 + r.2), ())) s (ls.flatMap fun l => [l.affine.gen, (l.spline tiny c).gen])).1 := by
  constructor
  · induction ls generalizing s with
    | nil => rfl
    | cons l ls ih => simp only [List.flatMap_cons, List.cons_append, List.nil_append, scan]; exact ih _
  · induction ls generalizing s with
    | nil => rfl
    | cons l ls ih => simp only [List.flatMap_cons, List.cons_append, List.nil_append, scan]; exact ih _

/-- RealNVP is an instance of the general flow. -/
theorem C92_is_realNVP (rng : Rng ℝ) (m : RealNVP d) (x : Pos ℝ d) (k : Key) (n : ℕ) : (m.gen rng).logProb x = m.logProb x ∧ (m.gen rng).sample k n = m.sample rng k n := by
  refine ⟨?_, ?_⟩
  · simp only [Gen.Flow.logProb, RealNVP.logProb, Gen.Flow.forward, RealNVP.forward]
    rw [(gen_layers_realNVP _ _).1]; rfl
  · simp only [Gen.Flow.sample, RealNVP.sample, Gen.Flow.inverse, RealNVP.inverse]
    refine List.map_congr_left fun z _ => ?_
    rw [(gen_layers_realNVP _ _).2]; rfl

/-- The spline flow is an instance of the general flow. -/
theorem C92_is_spline {K : ℕ} (tiny : ℝ) (rng : Rng ℝ) (m : SplineFlow d K) (x : Pos ℝ d) (k : Key) (n : ℕ) :
    (m.gen tiny rng).logProb x = m.logProb tiny x ∧ (m.gen tiny rng).sample k n = m.sample tiny rng k n := by
  refine ⟨?_, ?_⟩
  · simp only [Gen.Flow.logProb, SplineFlow.logProb, Gen.Flow.forward, SplineFlow.forward]
    rw [(gen_layers_spline tiny m.cfg _ _).1]; rfl
  · simp only [Gen.Flow.sample, SplineFlow.sample, Gen.Flow.inverse, SplineFlow.inverse]
    refine List.map_congr_left fun z _ => ?_
    rw [(gen_layers_spline tiny m.cfg _ _).2]; rfl

/-- The statistics are those of the real model. -/
theorem C92_is_stats (data : List (Pos ℝ d)) : Gen.rowMean data = rowMean data ∧ Gen.rowVar data = fun i => rowCov data i i := ⟨rfl, rfl⟩

theorem gen_loss (f : Pos ℝ d → ℝ) (b : List (Pos ℝ d)) : Gen.nfLoss f b = nfLoss f b := rfl

theorem gen_pow (b : ℝ) (t : ℕ) : Gen.powN b t = b ^ t := by
  induction t with
  | zero => rfl
  | succ t ih => rw [Gen.powN, ih, pow_succ]

/-- The optimizer step is that of the real model. -/
theorem C92_is_adamw {ι : Type} [Fintype ι] (lr b1 : ℝ) (g p : ι → ℝ) (o : AdamState ι) :
    let r := Gen.adamwStep (Finset.univ : Finset ι).toList lr b1 (999 / 1000) (1 / 10 ^ 8) (1 / 10000) g (⟨o.mu, o.nu, o.count⟩, p)
    let s := adamwStep lr b1 g (o, p)
    r.1.mu = s.1.mu ∧ r.1.nu = s.1.nu ∧ r.1.count = s.1.count ∧ r.2 = s.2 := by
  have hs : ((Finset.univ : Finset ι).toList.map fun i => g i * g i).sum = ∑ i, g i ^ 2 := by
    rw [Finset.sum_map_toList]; exact Finset.sum_congr rfl fun i _ => by ring
  have hc : Gen.clipByGlobalNorm (Finset.univ : Finset ι).toList g = clipByGlobalNorm g := by
    funext i
    simp only [Gen.clipByGlobalNorm, clipByGlobalNorm, hs]
    rw [show (Transc.sqrt (∑ i, g i ^ 2) : ℝ) = Real.sqrt (∑ i, g i ^ 2) from rfl]
    simp only [blt_real]
  simp only [Gen.adamwStep, adamwStep, hc, gen_pow]
  refine ⟨trivial, ?_, trivial, ?_⟩
  · funext i; ring
  · funext i
    rw [show ∀ x : ℝ, (Transc.sqrt x : ℝ) = Real.sqrt x from fun _ => rfl]
    simp only [← sq]

/-! ### The default base distribution -/

theorem sumFin_high (n : ℕ) (f : Fin n → XR) (hf : ∀ i, f i = .nan ∨ f i = .pinf ∨ ∃ r, f i = .fin r) (i : Fin n) (h : XR.High (f i)) : XR.High (sumFin f) ∧ (f i = .nan → sumFin f = .nan) := by
  induction n with
  | zero => exact i.elim0
  | succ n ih =>
    rw [sumFin]
    have hrest : ∀ m (g : Fin m → XR), (∀ i, g i = .nan ∨ g i = .pinf ∨ ∃ r, g i = .fin r) → sumFin g = .nan ∨ sumFin g = .pinf ∨ ∃ r, sumFin g = .fin r := by
      intro m
      induction m with
      | zero => intro g _; right; right; exact ⟨0, rfl⟩
      | succ m ih2 =>
        intro g hg
        rw [sumFin]
        rcases hg 0 with e | e | ⟨r, e⟩ <;> rw [e] <;> rcases ih2 _ (fun i => hg i.succ) with e2 | e2 | ⟨r2, e2⟩ <;> rw [e2, XR.add_def] <;> simp [XR.add]
    induction i using Fin.cases with
    | zero =>
      refine ⟨?_, fun e => by rw [e, XR.nan_add]⟩
      rcases h with e | e <;> rw [e]
      · exact Or.inl (XR.nan_add _)
      · rcases hrest _ _ (fun i => hf i.succ) with e2 | e2 | ⟨r2, e2⟩ <;> rw [e2, XR.add_def] <;> simp [XR.add, XR.High]
    | succ i =>
      obtain ⟨h1, h2⟩ := ih (fun i => f i.succ) (fun i => hf i.succ) i h
      refine ⟨?_, fun e => by rw [h2 e, XR.add_nan]⟩
      rcases h1 with e | e <;> rw [e]
      · exact Or.inl (XR.add_nan _)
      · rcases hf 0 with e2 | e2 | ⟨r2, e2⟩ <;> rw [e2, XR.add_def] <;> simp [XR.add, XR.High]

/-- **C92 (base).** The default base distribution, a normal distribution with a finite mean and a positive finite variance, propagates what is not finite. -/
theorem C92_base (mean : Pos XR d) (hm : ∀ i, ∃ r, mean i = .fin r) (c : ℝ) (hc : 0 < c) : PropagatesNonFinite fun x : Pos XR d => isoNormLogpdf x mean (.fin c) := by
  have hsq : ∀ a : XR, (a * a = .nan ∨ a * a = .pinf ∨ ∃ r, a * a = .fin r) ∧ (NotFinite a → XR.High (a * a)) ∧ (a = .nan → a * a = .nan) := by
    intro a; rw [XR.mul_def]
    cases a <;> simp [XR.mul, XR.High, NotFinite, XR.neg]
  have hsub : ∀ a b : XR, (∃ r, b = .fin r) → (NotFinite a → NotFinite (a - b)) ∧ (a = .nan → a - b = .nan) := by
    rintro a b ⟨r, rfl⟩
    rw [XR.sub_def]
    cases a <;> simp [XR.add, XR.neg, NotFinite]
  have hpre : ∀ s : XR, XR.High s → ∀ e : XR, (∃ r, e = .fin r) → XR.Low (-(1 / two) * s / (.fin c) - e) ∧ (s = .nan → -(1 / two) * s / (.fin c) - e = .nan) := by
    rintro s hs e ⟨r, rfl⟩
    have h2 : (-(1 / two) : XR) = .fin (-(1 / 2)) := by
      show XR.neg (XR.mul (.fin 1) (XR.inv (.fin (1 + 1)))) = _
      have : (1 + 1 : ℝ) ≠ 0 := by norm_num
      simp only [XR.inv, this, if_false, XR.mul, XR.neg]
      norm_num
    have hi : XR.inv (.fin c) = .fin c⁻¹ := by simp [XR.inv, hc.ne']
    have hci : 0 < c⁻¹ := inv_pos.2 hc
    rw [h2, XR.div_def, hi, XR.sub_def, XR.mul_def]
    rcases hs with rfl | rfl
    · simp [XR.mul, XR.add, XR.Low]
    · have e1 : XR.mul (.fin (-(1 / 2))) .pinf = .ninf := by
        have : ¬ (0 : ℝ) < -(1 / 2) := by norm_num
        have h0 : (-(1 / 2) : ℝ) ≠ 0 := by norm_num
        simp only [XR.mul, h0, this, if_false, XR.neg]
      have e2 : XR.mul .ninf (.fin c⁻¹) = .ninf := by simp only [XR.mul, hci.ne', hci, if_false, if_true]
      rw [e1, e2]
      simp [XR.add, XR.neg, XR.Low]
  have hd : ∃ r, ((d : XR) / two * (Transc.log (two * Transc.pi) + Transc.log (.fin c)) : XR) = .fin r := by
    have h1 : (two * Transc.pi : XR) = .fin (2 * Real.pi) := by
      show XR.mul (XR.add (.fin 1) (.fin 1)) (.fin Real.pi) = _
      simp only [XR.add, XR.mul]; norm_num
    have h2 : (Transc.log (.fin (2 * Real.pi)) : XR) = .fin (Real.log (2 * Real.pi)) := by
      have hp : (0 : ℝ) < 2 * Real.pi := by positivity
      show (if 2 * Real.pi < 0 then XR.nan else if 2 * Real.pi = 0 then .ninf else .fin (Real.log (2 * Real.pi))) = _
      rw [if_neg hp.not_gt, if_neg hp.ne']
    have h3 : (Transc.log (.fin c) : XR) = .fin (Real.log c) := by
      show (if c < 0 then XR.nan else if c = 0 then .ninf else .fin (Real.log c)) = _
      rw [if_neg hc.not_gt, if_neg hc.ne']
    rw [h1, h2, h3]
    refine ⟨d / 2 * (Real.log (2 * Real.pi) + Real.log c), ?_⟩
    show XR.mul (XR.mul (.fin (d : ℝ)) (XR.inv (.fin (1 + 1)))) (XR.add _ _) = _
    have : (1 + 1 : ℝ) ≠ 0 := by norm_num
    simp only [XR.inv, this, if_false, XR.mul, XR.add]
    norm_num [div_eq_mul_inv]
  refine ⟨fun x i hx => ?_, fun x i hx => ?_⟩
  · obtain ⟨h1, -⟩ := sumFin_high d (fun i => (x i - mean i) * (x i - mean i)) (fun i => (hsq _).1) i ((hsq _).2.1 ((hsub _ _ (hm i)).1 hx))
    exact (hpre _ h1 _ hd).1
  · have hn : (fun i => (x i - mean i) * (x i - mean i)) i = .nan := (hsq _).2.2 ((hsub _ _ (hm i)).2 hx)
    obtain ⟨h1, h2⟩ := sumFin_high d (fun i => (x i - mean i) * (x i - mean i)) (fun i => (hsq _).1) i (Or.inl hn)
    exact (hpre _ h1 _ hd).2 (h2 hn)

end
end FlowMC
