import Verif.Spec.Hamiltonian
import Mathlib.MeasureTheory.Measure.Hausdorff
import Mathlib.Analysis.Calculus.InverseFunctionTheorem.ApproximatesLinearOn
/-
Short leapfrog trajectories: the end point as a function of the initial momentum is a bi-Lipschitz bijection, so that a momentum with a positive density gives an end point with a positive density.
-/
open MeasureTheory
open scoped ENNReal NNReal
namespace FlowMC
open Spec

variable {d : ℕ}

/-- A bi-Lipschitz bijection of `ℝᵈ` maps measures equivalent to Lebesgue measure to measures equivalent to Lebesgue measure. -/
theorem biLipschitz_map {F : (Fin d → ℝ) → (Fin d → ℝ)} {K K' : ℝ≥0} (h1 : LipschitzWith K F) (h2 : AntilipschitzWith K' F) (h3 : Function.Surjective F) {ν : Measure (Fin d → ℝ)}
    (hν : ν ≪ volume) (hν' : volume ≪ ν) : ν.map F ≪ volume ∧ volume ≪ ν.map F := by
  have hF : Measurable F := h1.continuous.measurable
  have hH : (volume : Measure (Fin d → ℝ)) = Measure.hausdorffMeasure (d : ℝ) := by rw [← hausdorffMeasure_pi_real, Fintype.card_fin]
  constructor
  · refine Measure.AbsolutelyContinuous.mk fun s hs h0 => ?_
    rw [Measure.map_apply hF hs]
    refine hν ?_
    have hG : LipschitzWith K' (Function.surjInv h3) := h2.to_rightInverse (Function.rightInverse_surjInv h3)
    have hsub : F ⁻¹' s = Function.surjInv h3 '' s := by
      ext y
      refine ⟨fun hy => ⟨F y, hy, h2.injective (Function.surjInv_eq h3 _)⟩, ?_⟩
      rintro ⟨z, hz, rfl⟩
      rw [Set.mem_preimage, Function.surjInv_eq h3]
      exact hz
    rw [hsub]
    have := hG.hausdorffMeasure_image_le (Nat.cast_nonneg d) s
    rw [← hH, h0, mul_zero] at this
    exact le_antisymm this zero_le
  · refine Measure.AbsolutelyContinuous.mk fun s hs h0 => ?_
    rw [Measure.map_apply hF hs] at h0
    have hsub : s = F '' (F ⁻¹' s) := (Set.image_preimage_eq s h3).symm
    rw [hsub]
    have := h1.hausdorffMeasure_image_le (Nat.cast_nonneg d) (F ⁻¹' s)
    rw [← hH, hν' h0, mul_zero] at this
    exact le_antisymm this zero_le

/-- The difference of two trajectories started at the same point with momenta `p`, `p'`, compared with free motion. -/
theorem verlet_spread (ε : ℝ) (m : Fin d → ℝ) (hm : ∀ i, 0 < m i) (B : ℝ) (hB : ∀ i, m i ≤ B) (hB0 : 0 ≤ B) (g : (Fin d → ℝ) → (Fin d → ℝ)) (K : ℝ≥0) (hg : LipschitzWith K g) (x p p' : Fin d → ℝ) (N : ℕ)
    (hN : K * B * ε ^ 2 * ((N : ℝ) ^ 2 - 1) ≤ 3) (k : ℕ) (hk : k ≤ N) :
    let z := fun k => (verlet ε (fun p j => p j * m j) g)^[k] (x, p)
    let z' := fun k => (verlet ε (fun p j => p j * m j) g)^[k] (x, p')
    let S := ‖fun j => m j * (p j - p' j)‖
    ‖fun j => m j * (((z k).2 j - ε / 2 * g (z k).1 j) - ((z' k).2 j - ε / 2 * g (z' k).1 j)) - m j * (p j - p' j)‖ ≤ K * B * ε ^ 2 * (k * (k + 1)) * S ∧
    ‖fun j => ((z k).1 j - (z' k).1 j) - k * ε * (m j * (p j - p' j))‖ ≤ |ε| * (K * B * ε ^ 2) * (((k : ℝ) ^ 3 - k) / 3) * S := by
  intro z z' S
  have hS : 0 ≤ S := norm_nonneg _
  set a := K * B * ε ^ 2 with ha
  have ha0 : 0 ≤ a := by positivity
  induction k with
  | zero =>
    have h1 : z 0 = (x, p) := rfl
    have h2 : z' 0 = (x, p') := rfl
    refine ⟨?_, ?_⟩
    · rw [pi_norm_le_iff_of_nonneg (by simp)]
      intro j
      rw [h1, h2]
      simp only [sub_sub_sub_cancel_right, sub_self, norm_zero]
      simp
    · rw [pi_norm_le_iff_of_nonneg (by simp)]
      intro j
      rw [h1, h2]
      simp
  | succ k ih =>
    obtain ⟨ih1, ih2⟩ := ih (by omega)
    have e1 : z (k + 1) = verlet ε (fun p j => p j * m j) g (z k) := Function.iterate_succ_apply' _ _ _
    have e2 : z' (k + 1) = verlet ε (fun p j => p j * m j) g (z' k) := Function.iterate_succ_apply' _ _ _
    have hx : ∀ j, (z (k + 1)).1 j = (z k).1 j + ε * (((z k).2 j - ε / 2 * g (z k).1 j) * m j) := fun j => by rw [e1]; rfl
    have hx' : ∀ j, (z' (k + 1)).1 j = (z' k).1 j + ε * (((z' k).2 j - ε / 2 * g (z' k).1 j) * m j) := fun j => by rw [e2]; rfl
    have hp : ∀ j, (z (k + 1)).2 j = ((z k).2 j - ε / 2 * g (z k).1 j) - ε / 2 * g (z (k + 1)).1 j := fun j => by rw [e1]; rfl
    have hp' : ∀ j, (z' (k + 1)).2 j = ((z' k).2 j - ε / 2 * g (z' k).1 j) - ε / 2 * g (z' (k + 1)).1 j := fun j => by rw [e2]; rfl
    have hE : ‖fun j => ((z (k + 1)).1 j - (z' (k + 1)).1 j) - (k + 1 : ℕ) * ε * (m j * (p j - p' j))‖ ≤ |ε| * a * ((((k + 1 : ℕ) : ℝ) ^ 3 - (k + 1 : ℕ)) / 3) * S := by
      have e : (fun j => ((z (k + 1)).1 j - (z' (k + 1)).1 j) - (k + 1 : ℕ) * ε * (m j * (p j - p' j))) = (fun j => ((z k).1 j - (z' k).1 j) - k * ε * (m j * (p j - p' j))) +
          ε • (fun j => m j * (((z k).2 j - ε / 2 * g (z k).1 j) - ((z' k).2 j - ε / 2 * g (z' k).1 j)) - m j * (p j - p' j)) := by
        funext j
        simp only [Pi.add_apply, Pi.smul_apply, smul_eq_mul, hx, hx']
        push_cast
        ring
      rw [e]
      refine (norm_add_le _ _).trans ?_
      rw [norm_smul, Real.norm_eq_abs]
      have := mul_le_mul_of_nonneg_left ih1 (abs_nonneg ε)
      push_cast
      refine (add_le_add ih2 this).trans (le_of_eq ?_)
      ring
    refine ⟨?_, hE⟩
    have hk1 : ((k + 1 : ℕ) : ℝ) ≤ N := by exact_mod_cast hk
    have hcub : a * ((((k + 1 : ℕ) : ℝ) ^ 3 - (k + 1 : ℕ)) / 3) ≤ (k + 1 : ℕ) := by
      have h1 : a * (((k + 1 : ℕ) : ℝ) ^ 2 - 1) ≤ 3 := by
        refine le_trans ?_ hN
        have : ((k + 1 : ℕ) : ℝ) ^ 2 ≤ (N : ℝ) ^ 2 := pow_le_pow_left₀ (by positivity) hk1 2
        exact mul_le_mul_of_nonneg_left (by linarith) ha0
      have h2 := mul_le_mul_of_nonneg_left h1 (show (0 : ℝ) ≤ (k + 1 : ℕ) / 3 by positivity)
      calc _ = ((k + 1 : ℕ) : ℝ) / 3 * (a * (((k + 1 : ℕ) : ℝ) ^ 2 - 1)) := by ring
        _ ≤ _ := h2
        _ = _ := by ring
    have hD : ‖(z (k + 1)).1 - (z' (k + 1)).1‖ ≤ 2 * (k + 1 : ℕ) * |ε| * S := by
      have e : (z (k + 1)).1 - (z' (k + 1)).1 = (fun j => ((z (k + 1)).1 j - (z' (k + 1)).1 j) - (k + 1 : ℕ) * ε * (m j * (p j - p' j))) + (((k + 1 : ℕ) : ℝ) * ε) • (fun j => m j * (p j - p' j)) := by
        funext j
        simp only [Pi.add_apply, Pi.smul_apply, Pi.sub_apply, smul_eq_mul]
        ring
      rw [e]
      refine (norm_add_le _ _).trans ?_
      rw [norm_smul, Real.norm_eq_abs, abs_mul, Nat.abs_cast]
      have h2 := mul_le_mul_of_nonneg_left hcub (mul_nonneg (abs_nonneg ε) hS)
      have : |ε| * a * ((((k + 1 : ℕ) : ℝ) ^ 3 - (k + 1 : ℕ)) / 3) * S = |ε| * S * (a * ((((k + 1 : ℕ) : ℝ) ^ 3 - (k + 1 : ℕ)) / 3)) := by ring
      rw [this] at hE
      have h3 := add_le_add (hE.trans h2) (le_refl (((k + 1 : ℕ) : ℝ) * |ε| * S))
      refine h3.trans (le_of_eq ?_)
      ring
    have hgd : ‖fun j => m j * (g (z (k + 1)).1 j - g (z' (k + 1)).1 j)‖ ≤ B * (K * (2 * (k + 1 : ℕ) * |ε| * S)) := by
      have h0 : ‖g (z (k + 1)).1 - g (z' (k + 1)).1‖ ≤ K * (2 * (k + 1 : ℕ) * |ε| * S) := by
        have := hg.dist_le_mul (z (k + 1)).1 (z' (k + 1)).1
        rw [dist_eq_norm, dist_eq_norm] at this
        exact this.trans (mul_le_mul_of_nonneg_left hD K.2)
      rw [pi_norm_le_iff_of_nonneg (by positivity)]
      intro j
      rw [norm_mul, Real.norm_eq_abs, abs_of_pos (hm j)]
      exact mul_le_mul (hB j) ((norm_le_pi_norm (g (z (k + 1)).1 - g (z' (k + 1)).1) j).trans h0) (norm_nonneg _) hB0
    have e : (fun j => m j * (((z (k + 1)).2 j - ε / 2 * g (z (k + 1)).1 j) - ((z' (k + 1)).2 j - ε / 2 * g (z' (k + 1)).1 j)) - m j * (p j - p' j)) =
        (fun j => m j * (((z k).2 j - ε / 2 * g (z k).1 j) - ((z' k).2 j - ε / 2 * g (z' k).1 j)) - m j * (p j - p' j)) - ε • (fun j => m j * (g (z (k + 1)).1 j - g (z' (k + 1)).1 j)) := by
      funext j
      simp only [Pi.sub_apply, Pi.smul_apply, smul_eq_mul, hp, hp']
      ring
    rw [e]
    refine (norm_sub_le _ _).trans ?_
    rw [norm_smul, Real.norm_eq_abs]
    refine (add_le_add ih1 (mul_le_mul_of_nonneg_left hgd (abs_nonneg ε))).trans (le_of_eq ?_)
    push_cast
    have : |ε| * |ε| = ε ^ 2 := by rw [abs_mul_abs_self, sq]
    rw [ha]
    linear_combination (B * K * 2 * (k + 1) * S) * this

/-- The end point of a short trajectory. -/
theorem verlet_end (ε : ℝ) (hε : ε ≠ 0) (m : Fin d → ℝ) (hm : ∀ i, 0 < m i) (g : (Fin d → ℝ) → (Fin d → ℝ)) (n : ℕ)
    (hs : n = 0 ∨ ∃ K : ℝ≥0, LipschitzWith K g ∧ ∀ i, K * m i * ε ^ 2 * (n * (n + 2)) < 3) (c : Fin d → ℝ) (hc : ∀ i, c i ≠ 0) (x : Fin d → ℝ) :
    ∃ K K' : ℝ≥0, LipschitzWith K (fun ξ : Fin d → ℝ => ((verlet ε (fun p j => p j * m j) g)^[n + 1] (x, fun i => c i * ξ i)).1) ∧
      AntilipschitzWith K' (fun ξ : Fin d → ℝ => ((verlet ε (fun p j => p j * m j) g)^[n + 1] (x, fun i => c i * ξ i)).1) ∧
      Function.Surjective (fun ξ : Fin d → ℝ => ((verlet ε (fun p j => p j * m j) g)^[n + 1] (x, fun i => c i * ξ i)).1) := by
  -- free motion
  have hn : ((n + 1 : ℕ) : ℝ) ≠ 0 := by positivity
  let u : (i : Fin d) → ℝˣ := fun i => Units.mk0 (((n + 1 : ℕ) : ℝ) * ε * m i * c i) (by have := (hm i).ne'; have := hc i; positivity)
  let A : (Fin d → ℝ) ≃L[ℝ] (Fin d → ℝ) := ContinuousLinearEquiv.piCongrRight fun i => ContinuousLinearEquiv.unitsEquivAut ℝ (u i)
  have hA : ∀ ξ i, A ξ i = ξ i * (((n + 1 : ℕ) : ℝ) * ε * m i * c i) := fun ξ i => rfl
  -- the end point is a small perturbation of it
  obtain ⟨θ, hθ, hF⟩ : ∃ θ : ℝ≥0, θ < 1 ∧ ∀ ξ ξ' : Fin d → ℝ, ‖((verlet ε (fun p j => p j * m j) g)^[n + 1] (x, fun i => c i * ξ i)).1 -
      ((verlet ε (fun p j => p j * m j) g)^[n + 1] (x, fun i => c i * ξ' i)).1 - A (ξ - ξ')‖ ≤ θ * ‖A (ξ - ξ')‖ := by
    rcases hs with rfl | ⟨K, hK, hlt⟩
    · refine ⟨0, one_pos, fun ξ ξ' => le_of_eq ?_⟩
      rw [NNReal.coe_zero, zero_mul, norm_eq_zero]
      funext j
      simp only [Pi.sub_apply, zero_add, Function.iterate_one, verlet, hA, Pi.zero_apply]
      push_cast
      ring
    · by_cases hd : Nonempty (Fin d)
      swap
      · refine ⟨0, one_pos, fun ξ ξ' => le_of_eq ?_⟩
        rw [NNReal.coe_zero, zero_mul, norm_eq_zero]
        funext j
        exact absurd ⟨j⟩ hd
      obtain ⟨i0, hi0⟩ := Finite.exists_max m
      have hB0 := (hm i0).le
      have h3 := hlt i0
      obtain ⟨θ, hθ⟩ : ∃ θ : ℝ≥0, (θ : ℝ) = K * m i0 * ε ^ 2 * (n * (n + 2)) / 3 := ⟨⟨K * m i0 * ε ^ 2 * (n * (n + 2)) / 3, by positivity⟩, rfl⟩
      refine ⟨θ, ?_, fun ξ ξ' => ?_⟩
      · rw [← NNReal.coe_lt_coe, hθ, NNReal.coe_one]
        linarith
      · have hN : K * m i0 * ε ^ 2 * (((n + 1 : ℕ) : ℝ) ^ 2 - 1) ≤ 3 := by
          push_cast
          refine le_trans (le_of_eq ?_) h3.le
          ring
        have key := (verlet_spread ε m hm (m i0) hi0 hB0 g K hK x (fun i => c i * ξ i) (fun i => c i * ξ' i) (n + 1) hN (n + 1) le_rfl).2
        have eA : (fun j => ((n + 1 : ℕ) : ℝ) * ε * (m j * (c j * ξ j - c j * ξ' j))) = A (ξ - ξ') := by
          funext j
          simp only [hA, Pi.sub_apply]
          ring
        have eS : ‖A (ξ - ξ')‖ = ((n + 1 : ℕ) : ℝ) * |ε| * ‖fun j => m j * (c j * ξ j - c j * ξ' j)‖ := by
          have : A (ξ - ξ') = (((n + 1 : ℕ) : ℝ) * ε) • fun j => m j * (c j * ξ j - c j * ξ' j) := by rw [← eA]; rfl
          rw [this, norm_smul, Real.norm_eq_abs, abs_mul, Nat.abs_cast]
        have e0 : ((verlet ε (fun p j => p j * m j) g)^[n + 1] (x, fun i => c i * ξ i)).1 - ((verlet ε (fun p j => p j * m j) g)^[n + 1] (x, fun i => c i * ξ' i)).1 - A (ξ - ξ') =
            fun j => (((verlet ε (fun p j => p j * m j) g)^[n + 1] (x, fun i => c i * ξ i)).1 j - ((verlet ε (fun p j => p j * m j) g)^[n + 1] (x, fun i => c i * ξ' i)).1 j) -
              ((n + 1 : ℕ) : ℝ) * ε * (m j * (c j * ξ j - c j * ξ' j)) := by
          rw [← eA]; rfl
        rw [e0, eS, hθ]
        refine key.trans (le_of_eq ?_)
        push_cast
        ring
  set F := fun ξ : Fin d → ℝ => ((verlet ε (fun p j => p j * m j) g)^[n + 1] (x, fun i => c i * ξ i)).1 with hFd
  -- in the coordinates of free motion
  have hG : ApproximatesLinearOn (F ∘ A.symm) ((ContinuousLinearEquiv.refl ℝ (Fin d → ℝ) : (Fin d → ℝ) ≃L[ℝ] (Fin d → ℝ)) : (Fin d → ℝ) →L[ℝ] (Fin d → ℝ)) Set.univ θ := by
    intro y _ y' _
    have := hF (A.symm y) (A.symm y')
    rw [map_sub, A.apply_symm_apply, A.apply_symm_apply] at this
    exact this
  have hN : Subsingleton (Fin d → ℝ) ∨ θ < ‖((ContinuousLinearEquiv.refl ℝ (Fin d → ℝ)).symm : (Fin d → ℝ) →L[ℝ] (Fin d → ℝ))‖₊⁻¹ := by
    rcases subsingleton_or_nontrivial (Fin d → ℝ) with h | h
    · exact .inl h
    · right
      have : ((ContinuousLinearEquiv.refl ℝ (Fin d → ℝ)).symm : (Fin d → ℝ) →L[ℝ] (Fin d → ℝ)) = ContinuousLinearMap.id ℝ _ := rfl
      rw [this]
      have : ‖ContinuousLinearMap.id ℝ (Fin d → ℝ)‖₊ = 1 := by ext; simp
      rw [this, inv_one]
      exact hθ
  have eF : F = (F ∘ A.symm) ∘ A := by funext ξ; simp
  have l1 := hG.lipschitz
  have l2 := hG.antilipschitz hN
  have l1' : LipschitzWith _ (F ∘ A.symm) := fun y y' => l1 ⟨y, trivial⟩ ⟨y', trivial⟩
  have l2' : AntilipschitzWith _ (F ∘ A.symm) := fun y y' => l2 ⟨y, trivial⟩ ⟨y', trivial⟩
  rw [eF]
  exact ⟨_, _, l1'.comp A.lipschitz, l2'.comp A.antilipschitz, (hG.surjective hN).comp A.surjective⟩

end FlowMC
