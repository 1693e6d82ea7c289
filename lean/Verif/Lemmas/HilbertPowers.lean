import Mathlib.Analysis.InnerProductSpace.Adjoint
import Mathlib.Analysis.InnerProductSpace.Projection.Submodule
import Mathlib.Tactic.Linarith
/-
Powers of a product of two self-adjoint contractions of a Hilbert space.  No code of /repo is modelled here.
-/
open Filter Topology
open scoped InnerProductSpace
namespace FlowMC

variable {H : Type} [NormedAddCommGroup H] [InnerProductSpace ℝ H] [CompleteSpace H]

/-- A positive self-adjoint contraction moves a vector by no more than it shortens it. -/
theorem pos_contraction (B : H →L[ℝ] H) (hs : ∀ x y, ⟪B x, y⟫_ℝ = ⟪x, B y⟫_ℝ) (hp : ∀ x, 0 ≤ ⟪B x, x⟫_ℝ) (hc : ∀ x, ‖B x‖ ≤ ‖x‖) (z : H) :
    ‖z - B z‖ ^ 2 ≤ ‖z‖ ^ 2 - ‖B z‖ ^ 2 := by
  have h1 := hp (z - B z)
  rw [map_sub, inner_sub_left, inner_sub_right, inner_sub_right] at h1
  have h2 : ⟪B (B z), z⟫_ℝ = ‖B z‖ ^ 2 := by rw [hs, real_inner_self_eq_norm_sq]
  have h3 : ⟪B z, B z⟫_ℝ = ‖B z‖ ^ 2 := real_inner_self_eq_norm_sq _
  have h4 : ⟪B (B z), B z⟫_ℝ ≤ ‖B z‖ ^ 2 := by
    refine (real_inner_le_norm _ _).trans ?_
    rw [pow_two]; exact mul_le_mul_of_nonneg_right (hc _) (norm_nonneg _)
  have h5 : ⟪z, B z⟫_ℝ = ⟪B z, z⟫_ℝ := (hs z z).symm
  rw [norm_sub_sq_real, h5]
  linarith

/-- If `A`, `B` are self-adjoint contractions, `B` is positive and its fixed vectors are the multiples of `e`, which `A` fixes too, then the powers of `B A` converge
strongly to the projection on `e`. -/
theorem product_powers (A B : H →L[ℝ] H) (hsA : ∀ x y, ⟪A x, y⟫_ℝ = ⟪x, A y⟫_ℝ) (hcA : ∀ x, ‖A x‖ ≤ ‖x‖)
    (hsB : ∀ x y, ⟪B x, y⟫_ℝ = ⟪x, B y⟫_ℝ) (hp : ∀ x, 0 ≤ ⟪B x, x⟫_ℝ) (hcB : ∀ x, ‖B x‖ ≤ ‖x‖) (e : H) (he : ‖e‖ = 1) (hA : A e = e) (hB : B e = e)
    (hfix : ∀ w, B w = w → ∃ c : ℝ, w = c • e) (h : H) :
    Tendsto (fun n => (fun x => B (A x))^[n] h) atTop (𝓝 (⟪e, h⟫_ℝ • e)) := by
  set C : H →L[ℝ] H := B.comp A with hC
  have hCx : ∀ x, C x = B (A x) := fun x => rfl
  have hcC : ∀ x, ‖C x‖ ≤ ‖x‖ := fun x => (hcB _).trans (hcA _)
  have hfun : (fun x => B (A x)) = C := rfl
  rw [hfun]
  have hiterc : ∀ n x, ‖C^[n] x‖ ≤ ‖x‖ := by
    intro n; induction n with
    | zero => intro x; simp
    | succ n ih => intro x; rw [Function.iterate_succ_apply]; exact (ih _).trans (hcC x)
  have hiters : ∀ n x y, C^[n] (x - y) = C^[n] x - C^[n] y := by
    intro n; induction n with
    | zero => intro x y; simp
    | succ n ih => intro x y; simp only [Function.iterate_succ_apply, map_sub, ih]
  have hitera : ∀ n x y, C^[n] (x + y) = C^[n] x + C^[n] y := by
    intro n; induction n with
    | zero => intro x y; simp
    | succ n ih => intro x y; simp only [Function.iterate_succ_apply, map_add, ih]
  have hitersm : ∀ n (c : ℝ) x, C^[n] (c • x) = c • C^[n] x := by
    intro n; induction n with
    | zero => intro x y; simp
    | succ n ih => intro x y; simp only [Function.iterate_succ_apply, map_smul, ih]
  -- powers of `C` on the range of `1 - C²`
  have hrange : ∀ v, Tendsto (fun n => C^[n] (v - C (C v))) atTop (𝓝 0) := by
    intro v
    set y : ℕ → H := fun n => C^[n] v with hy
    have hys : ∀ n, y (n + 1) = B (A (y n)) := fun n => by rw [hy]; simp only [Function.iterate_succ_apply']; rfl
    have hmono : Antitone (fun n => ‖y n‖ ^ 2) := antitone_nat_of_succ_le fun n => by
      have : ‖y (n + 1)‖ ≤ ‖y n‖ := by rw [hys]; exact hcC _
      exact pow_le_pow_left₀ (norm_nonneg _) this 2
    have hbdd : BddBelow (Set.range fun n => ‖y n‖ ^ 2) := ⟨0, by rintro _ ⟨n, rfl⟩; positivity⟩
    have hlim := tendsto_atTop_ciInf hmono hbdd
    set c := ⨅ n, ‖y n‖ ^ 2
    have hlim1 : Tendsto (fun n => ‖y (n + 1)‖ ^ 2) atTop (𝓝 c) := hlim.comp (tendsto_add_atTop_nat 1)
    have hlim2 : Tendsto (fun n => ‖y (n + 2)‖ ^ 2) atTop (𝓝 c) := hlim.comp (tendsto_add_atTop_nat 2)
    have hz : Tendsto (fun n => ‖A (y n)‖ ^ 2) atTop (𝓝 c) := by
      refine tendsto_of_tendsto_of_tendsto_of_le_of_le hlim1 hlim (fun n => ?_) (fun n => ?_)
      · have : ‖y (n + 1)‖ ≤ ‖A (y n)‖ := by rw [hys]; exact hcB _
        exact pow_le_pow_left₀ (norm_nonneg _) this 2
      · exact pow_le_pow_left₀ (norm_nonneg _) (hcA _) 2
    have hd : Tendsto (fun n => ‖A (y n) - y (n + 1)‖ ^ 2) atTop (𝓝 0) := by
      have : Tendsto (fun n => ‖A (y n)‖ ^ 2 - ‖y (n + 1)‖ ^ 2) atTop (𝓝 0) := by simpa using hz.sub hlim1
      refine squeeze_zero (fun n => by positivity) (fun n => ?_) this
      rw [hys]; exact pos_contraction B hsB hp hcB _
    have hd1 : Tendsto (fun n => ‖A (y n) - y (n + 1)‖) atTop (𝓝 0) := by
      have := hd.sqrt
      simpa [Real.sqrt_sq (norm_nonneg _)] using this
    -- `y (n+2)` is close to `A² y n`
    have hd2 : Tendsto (fun n => ‖A (A (y n)) - y (n + 2)‖) atTop (𝓝 0) := by
      have h2 := (hd1.comp (tendsto_add_atTop_nat 1)).add hd1
      simp only [add_zero] at h2
      refine squeeze_zero (fun n => norm_nonneg _) (fun n => ?_) h2
      have e1 : A (A (y n)) - y (n + 2) = (A (y (n + 1)) - y (n + 1 + 1)) + A (A (y n) - y (n + 1)) := by rw [map_sub]; abel
      rw [e1]
      exact (norm_add_le _ _).trans (add_le_add le_rfl (hcA _))
    have hin : Tendsto (fun n => ⟪y (n + 2), y n⟫_ℝ) atTop (𝓝 c) := by
      have h1 : Tendsto (fun n => ⟪A (A (y n)) - y (n + 2), y n⟫_ℝ) atTop (𝓝 0) := by
        refine squeeze_zero_norm (a := fun n => ‖A (A (y n)) - y (n + 2)‖ * ‖v‖) (fun n => ?_) (by simpa using hd2.mul_const ‖v‖)
        refine (norm_inner_le_norm _ _).trans (mul_le_mul_of_nonneg_left (hiterc n v) (norm_nonneg _))
      have h2 := hz.sub h1
      simp only [sub_zero] at h2
      refine h2.congr fun n => ?_
      rw [inner_sub_left, hsA, real_inner_self_eq_norm_sq]; ring
    have hfin : Tendsto (fun n => ‖y n - y (n + 2)‖ ^ 2) atTop (𝓝 0) := by
      have h1 := (hlim.sub (hin.const_mul 2)).add hlim2
      have e0 : c - 2 * c + c = 0 := by ring
      rw [e0] at h1
      refine h1.congr fun n => ?_
      rw [norm_sub_sq_real, real_inner_comm (y n) (y (n + 2))]
    have hfin1 : Tendsto (fun n => ‖y n - y (n + 2)‖) atTop (𝓝 0) := by
      have := hfin.sqrt
      simpa [Real.sqrt_sq (norm_nonneg _)] using this
    rw [tendsto_zero_iff_norm_tendsto_zero]
    refine hfin1.congr fun n => ?_
    rw [hiters, ← Function.iterate_succ_apply, ← Function.iterate_succ_apply]
  -- the closure of that range contains everything orthogonal to `e`
  set R : Submodule ℝ H := LinearMap.range ((ContinuousLinearMap.id ℝ H - C.comp C : H →L[ℝ] H) : H →ₗ[ℝ] H) with hR
  have hperp : ∀ w ∈ Rᗮ, ∃ t : ℝ, w = t • e := by
    intro w hw
    have h1 : ∀ x, ⟪x - C (C x), w⟫_ℝ = 0 := fun x => (Submodule.mem_orthogonal R w).1 hw _ ⟨x, by simp⟩
    have h2 : ∀ x, ⟪x, w - A (B (A (B w)))⟫_ℝ = 0 := by
      intro x
      have := h1 x
      rw [inner_sub_left, hCx, hCx, hsB, hsA, hsB, hsA] at this
      rw [inner_sub_right]; exact this
    have h3 : w = A (B (A (B w))) := by
      have := h2 (w - A (B (A (B w))))
      exact sub_eq_zero.1 (inner_self_eq_zero.1 this)
    have h4 : ‖w‖ ≤ ‖B w‖ := by
      calc ‖w‖ = ‖A (B (A (B w)))‖ := by rw [← h3]
        _ ≤ ‖B w‖ := (hcA _).trans ((hcB _).trans (hcA _))
    have h5 := pos_contraction B hsB hp hcB w
    have h6 : ‖w‖ ^ 2 ≤ ‖B w‖ ^ 2 := pow_le_pow_left₀ (norm_nonneg _) h4 2
    have h7 : ‖w - B w‖ = 0 := by
      have : ‖w - B w‖ ^ 2 ≤ 0 := by linarith
      exact pow_eq_zero_iff two_ne_zero |>.1 (le_antisymm this (by positivity))
    exact hfix w (sub_eq_zero.1 (norm_eq_zero.1 h7)).symm
  have hclos : ∀ v, ⟪e, v⟫_ℝ = 0 → v ∈ R.topologicalClosure := by
    intro v hv
    rw [← Submodule.orthogonal_orthogonal_eq_closure]
    rw [Submodule.mem_orthogonal]
    intro w hw
    obtain ⟨t, rfl⟩ := hperp w hw
    rw [inner_smul_left, hv, mul_zero]
  have hzero : ∀ v, ⟪e, v⟫_ℝ = 0 → Tendsto (fun n => C^[n] v) atTop (𝓝 0) := by
    intro v hv
    rw [Metric.tendsto_atTop]
    intro ε hε
    have hm := hclos v hv
    rw [← SetLike.mem_coe, Submodule.topologicalClosure_coe, Metric.mem_closure_iff] at hm
    obtain ⟨u, ⟨x, rfl⟩, hu⟩ := hm (ε / 2) (by linarith)
    obtain ⟨N, hN⟩ := Metric.tendsto_atTop.1 (hrange x) (ε / 2) (by linarith)
    refine ⟨N, fun n hn => ?_⟩
    have h1 := hN n hn
    rw [dist_zero_right] at h1 ⊢
    have h2 : C^[n] v = C^[n] (v - (x - C (C x))) + C^[n] (x - C (C x)) := by rw [← hitera, sub_add_cancel]
    rw [h2]
    refine lt_of_le_of_lt (norm_add_le _ _) ?_
    have h3 : ‖C^[n] (v - (x - C (C x)))‖ < ε / 2 := by
      refine lt_of_le_of_lt (hiterc n _) ?_
      rw [← dist_eq_norm]
      simpa using hu
    linarith
  have hCe : ∀ n, C^[n] e = e := by
    intro n; induction n with
    | zero => rfl
    | succ n ih => rw [Function.iterate_succ_apply, hCx, hA, hB, ih]
  have hdec : h = ⟪e, h⟫_ℝ • e + (h - ⟪e, h⟫_ℝ • e) := by abel
  have horth : ⟪e, h - ⟪e, h⟫_ℝ • e⟫_ℝ = 0 := by
    rw [inner_sub_right, inner_smul_right, real_inner_self_eq_norm_sq, he]; ring
  have := (hzero _ horth).const_add (⟪e, h⟫_ℝ • e)
  rw [add_zero] at this
  refine this.congr fun n => ?_
  conv_rhs => rw [hdec]
  rw [hitera, hitersm, hCe]

end FlowMC
