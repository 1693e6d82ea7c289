import Verif.Props.Walls
/-
C67, chains: a chain of local steps on a target with hard boundaries, in arithmetic with infinities and NaN.
-/
open MeasureTheory ProbabilityTheory
open scoped ENNReal
set_option linter.unusedSectionVars false
namespace FlowMC
open Spec
noncomputable section
open Classical

variable {Ω D M O : Type} {d : ℕ}

/-- Settings under which a local kernel is exact for a walled target. -/
def Spec.ExactWalls (t : Target XR D d) (data : Data D) (g : (Fin d → ℝ) → Fin d → ℝ) : KernelRes XR d M → Prop
  | .grw s => ∃ a : ℝ, s = .fin a
  | .mala s => ∃ a : ℝ, a ≠ 0 ∧ s = .fin a
  | .hmc s _ m L => ∃ (ε : ℝ) (m' L' : Mat ℝ d), s = .fin ε ∧ m = embMat m' ∧ L = embMat L' ∧ IsPosDiag m' ∧ IsCholeskyInv m' L' ∧ ∀ x, t.grad (emb x) data = emb (g x)
  | .nf _ _ => False

variable {S : Set (Fin d → ℝ)} {lp : (Fin d → ℝ) → ℝ} {g : (Fin d → ℝ) → Fin d → ℝ} {t : Target XR D d} {data : Data D}

theorem wall_kernel_step (hW : Walled S lp g t data) (kr : KernelRes XR d M) (hk : ExactWalls t data g kr) :
    ∃ step : (Fin d → ℝ) × ℝ → (Fin d → ℝ) → Fin d → ℝ, Measurable (fun p : (Fin d → ℝ) × ((Fin d → ℝ) × ℝ) => step p.2 p.1) ∧
      Invariant (wallMeasure S lp) (noise d) step ∧ (∀ ω, ∀ x ∈ S, step ω x ∈ S) ∧
      ∀ (rng : Rng ℝ) K, kr.local? (liftRng rng) = some K → ∀ k, ∀ x ∈ S,
        (K k (emb x) (t.val (emb x) data) t data).pos = emb (step (rng.normal (.child k 0) d, rng.uniform (.child k 1)) x) ∧
        (K k (emb x) (t.val (emb x) data) t data).logp = t.val (K k (emb x) (t.val (emb x) data) t data).pos data := by
  cases kr with
  | grw s =>
    obtain ⟨a, rfl⟩ := hk
    have hm := wallStep_measurable hW.meas (grwQ_measurable a) (grwR_measurable hW a)
    refine ⟨_, hm, (wallStep_reversible hW.meas (grwQ_measurable a) (grwR_measurable hW a) (C22_grw_reversible a (innerTarget lp g) data hW.meas_lp)).invariant hm,
      fun ω x hx => wallStep_mem hx, ?_⟩
    intro rng K hK k x hx
    simp only [KernelRes.local?, Option.some.injEq] at hK; subst hK
    refine ⟨grw_wall hW a (rng.normal (.child k 0) d, rng.uniform (.child k 1)) x hx, ?_⟩
    simp only [grwKernel, grwStep]; split <;> rfl
  | mala s =>
    obtain ⟨a, ha, rfl⟩ := hk
    have hm := wallStep_measurable hW.meas (malaQ_measurable hW a) (malaR_measurable hW a)
    refine ⟨_, hm, (wallStep_reversible hW.meas (malaQ_measurable hW a) (malaR_measurable hW a)
      (C23_mala_reversible a ha (innerTarget lp g) data hW.meas_lp hW.meas_grad lp)).invariant hm, fun ω x hx => wallStep_mem hx, ?_⟩
    intro rng K hK k x hx
    simp only [KernelRes.local?, Option.some.injEq] at hK; subst hK
    refine ⟨mala_wall hW a ha (rng.normal (.child k 0) d, rng.uniform (.child k 1)) x hx (t.val (emb x) data), ?_⟩
    simp only [malaKernel, malaStep]; split <;> rfl
  | hmc s n m L =>
    obtain ⟨ε, m', L', rfl, rfl, rfl, hM, hL, hG⟩ := hk
    have hm := wallStep_measurable hW.meas (hmcQ_measurable hW ε n m' L') (hmcR_measurable hW ε n m' L')
    refine ⟨_, hm, (wallStep_reversible hW.meas (hmcQ_measurable hW ε n m' L') (hmcR_measurable hW ε n m' L')
      (C25_hmc_reversible_partial ε n m' L' hM hL (innerTarget lp g) data hW.meas_lp hW.meas_grad)).invariant hm, fun ω x hx => wallStep_mem hx, ?_⟩
    intro rng K hK k x hx
    simp only [KernelRes.local?, Option.some.injEq] at hK; subst hK
    refine ⟨hmc_wall hW hG ε n m' L' (rng.normal (.child k 0) d, rng.uniform (.child k 1)) x hx, ?_⟩
    simp only [hmcKernel, hmcStep]
    split
    · exact Ieee.neg_neg _
    · rfl
  | nf m b => exact hk.elim

variable {past : MeasurableSpace Ω} {sig : Key → MeasurableSpace Ω} [mΩ : MeasurableSpace Ω] {P : Measure Ω} [IsProbabilityMeasure P] {env : Ω → Env ℝ D d M O} {T : Key → Prop}

theorem wall_serial_law (h : IdealOn T past sig P env) (hW : Walled S lp g t data) (kr : KernelRes XR d M) (hk : ExactWalls t data g kr) (K : Ω → LocalKernel XR D d)
    (hK : ∀ ω, kr.local? (liftRng (env ω).rng) = some (K ω)) (μ : Measure (Fin d → ℝ)) (hμ : ∃ Z : ℝ≥0∞, μ = Z • wallMeasure S lp) (j : ℕ) (k : Key) (hT : ∀ a, Desc k a → T a)
    (A : Set (Option Key)) (hA : Disjoint A (descSet k)) (X : Ω → Fin d → ℝ) (hXS : ∀ ω, X ω ∈ S) (hX : Measurable[info past sig A] X) (hlaw : P.map X = μ) :
    ∃ Y : Ω → Fin d → ℝ, (∀ ω, (iterState (localBody (K ω) t data) j (k, emb (X ω), t.val (emb (X ω)) data)).2.1 = emb (Y ω) ∧ Y ω ∈ S) ∧
      Measurable[info past sig (A ∪ descSet k)] Y ∧ P.map Y = μ := by
  obtain ⟨step, hsm, hinv, hmem, hstep⟩ := wall_kernel_step hW kr hk
  have hinv' : Invariant μ (noise d) step := by
    obtain ⟨Z, rfl⟩ := hμ
    haveI : SFinite (noise d) := by unfold noise; infer_instance
    exact hinv.smul Z
  induction j generalizing k A X with
  | zero => exact ⟨X, fun ω => ⟨rfl, hXS ω⟩, hX.mono (info_mono Set.subset_union_left) le_rfl, hlaw⟩
  | succ j ih =>
    obtain ⟨nm, nl⟩ := noise_law h (.child k 1) (fun a ha => hT a (desc_trans (.child 1 .refl) ha))
    have hd : Disjoint A (descSet (.child k 1)) := hA.mono_right descSet_child
    set X' : Ω → Fin d → ℝ := fun ω => step ((env ω).rng.normal (.child (.child k 1) 0) d, (env ω).rng.uniform (.child (.child k 1) 1)) (X ω) with hX'd
    have hbody : ∀ ω, (localBody (K ω) t data (k, emb (X ω), t.val (emb (X ω)) data)).1 = (.child k 0, emb (X' ω), t.val (emb (X' ω)) data) := by
      intro ω
      have := hstep (env ω).rng (K ω) (hK ω) (.child k 1) (X ω) (hXS ω)
      simp only [localBody, split, this.1, this.2, hX'd]
    have hX' : Measurable[info past sig (A ∪ descSet (.child k 1))] X' :=
      hsm.comp ((hX.mono (info_mono Set.subset_union_left) le_rfl).prodMk (nm.mono (info_mono Set.subset_union_right) le_rfl))
    obtain ⟨Y, hY, hYm, hYl⟩ := ih (.child k 0) (fun a ha => hT a (desc_trans (.child 0 .refl) ha)) (A ∪ descSet (.child k 1))
      (Set.disjoint_union_left.2 ⟨hA.mono_right descSet_child, descSet_disjoint (by decide)⟩) X' (fun ω => hmem _ _ (hXS ω)) hX' (h.step hd hX nm hlaw nl hsm hinv')
    refine ⟨Y, fun ω => ?_, hYm.mono (info_mono ?_) le_rfl, hYl⟩
    · simp only [iterState, hbody]; exact hY ω
    · exact Set.union_subset (Set.union_subset Set.subset_union_left (descSet_child.trans Set.subset_union_right)) (descSet_child.trans Set.subset_union_right)

/-- **C67.** A chain of `n` local steps on a target with hard boundaries, started inside with the truncated target distribution and independently of the draws: every
row is a finite point inside the region, and has the truncated target distribution. -/
theorem C67_serial_rows (h : IdealDraws past sig P env) (hW : Walled S lp g t data) (kr : KernelRes XR d M) (hk : ExactWalls t data g kr) (K : Ω → LocalKernel XR D d)
    (hK : ∀ ω, kr.local? (liftRng (env ω).rng) = some (K ω)) (μ : Measure (Fin d → ℝ)) (hμ : ∃ Z : ℝ≥0∞, μ = Z • wallMeasure S lp) (n : ℕ) (k : Key)
    (X : Ω → Fin d → ℝ) (hXS : ∀ ω, X ω ∈ S) (hX : Measurable[past] X) (hlaw : P.map X = μ) (j : ℕ) (hj : j < n) :
    ∃ Y : Ω → Fin d → ℝ, (∀ ω, ((serialSample (K ω) t data n k (emb (X ω)))[j]?).map (·.pos) = some (emb (Y ω)) ∧ Y ω ∈ S) ∧ Measurable Y ∧ P.map Y = μ := by
  have hA : Disjoint ({none} : Set (Option Key)) (descSet k) := by
    rw [Set.disjoint_left]; rintro o ho ⟨a, rfl, _⟩; simp at ho
  obtain ⟨Y, hY, hYm, hYl⟩ := wall_serial_law h hW kr hk K hK μ hμ (j + 1) k (fun _ _ => trivial) {none} hA X hXS (hX.mono (past_le_info (by simp)) le_rfl) hlaw
  refine ⟨Y, fun ω => ⟨?_, (hY ω).2⟩, hYm.mono (h.info_le _) le_rfl, hYl⟩
  have := serialSample_state (K ω) t data n k (emb (X ω)) (j + 1) hj
  rw [(hY ω).1] at this
  exact this

end
end FlowMC
