import Verif.Lemmas.Ideal
import Verif.Props.Metropolis
import Verif.Props.HMC
/-
C28: a chain started in the target distribution stays in it, at every recorded step.
-/
open MeasureTheory ProbabilityTheory
open scoped ENNReal
set_option linter.unusedSectionVars false
namespace FlowMC
open Spec

variable {Ω D M O : Type} {d : ℕ}

/-- Settings under which a local kernel is exact: any step size for the random walk, a non-zero step size for MALA, a positive diagonal `condition_matrix` for HMC
(see `C25_not_invariant` for why not every matrix). -/
def Spec.ExactSettings : KernelRes ℝ d M → Prop
  | .grw _ => True
  | .mala dt => dt ≠ 0
  | .hmc _ _ m L => IsPosDiag m ∧ IsCholeskyInv m L
  | .nf _ _ => False

/-- A local kernel as a function of the draws it makes with the two halves of its key. -/
noncomputable def localStep (kr : KernelRes ℝ d M) (t : Target ℝ D d) (data : Data D) (ω : (Fin d → ℝ) × ℝ) (x : Pos ℝ d) : Pos ℝ d :=
  match kr with
  | .grw s => (grwStep s t data ω.1 ω.2 x (t.val x data)).pos
  | .mala s => (malaStep s t data ω.1 ω.2 x (t.val x data)).pos
  | .hmc s n m L => (hmcStep s n m L t data ω.1 ω.2 x (t.val x data)).pos
  | .nf _ _ => x

theorem localStep_measurable (kr : KernelRes ℝ d M) (t : Target ℝ D d) (data : Data D) (ht : Measurable (fun x => t.val x data)) (hg : Measurable (fun x => t.grad x data)) :
    Measurable (fun p : Pos ℝ d × ((Fin d → ℝ) × ℝ) => localStep kr t data p.2 p.1) := by
  cases kr with
  | grw s => exact grwStep_measurable s t data ht
  | mala s => exact malaStep_measurable s t data ht hg (fun x => t.val x data)
  | hmc s n m L => exact hmcStep_measurable s n m L t data ht hg
  | nf m b => exact measurable_fst

theorem localStep_reversible (kr : KernelRes ℝ d M) (hk : ExactSettings kr) (t : Target ℝ D d) (data : Data D) (ht : Measurable (fun x => t.val x data))
    (hg : Measurable (fun x => t.grad x data)) : Reversible (targetMeasure (fun x => t.val x data)) (noise d) (localStep kr t data) := by
  cases kr with
  | grw s => exact C22_grw_reversible s t data ht
  | mala s => exact C23_mala_reversible s hk t data ht hg (fun x => t.val x data)
  | hmc s n m L => exact C25_hmc_reversible_partial s n m L hk.1 hk.2 t data ht hg
  | nf m b => exact hk.elim

theorem local_kernel_eq (kr : KernelRes ℝ d M) (t : Target ℝ D d) (data : Data D) (rng : Rng ℝ) (K : LocalKernel ℝ D d) (hK : kr.local? rng = some K) (k : Key) (x : Pos ℝ d) :
    (K k x (t.val x data) t data).pos = localStep kr t data (rng.normal (.child k 0) d, rng.uniform (.child k 1)) x ∧
    (K k x (t.val x data) t data).logp = t.val (K k x (t.val x data) t data).pos data := by
  cases kr with
  | grw s =>
    simp only [KernelRes.local?, Option.some.injEq] at hK; subst hK
    refine ⟨rfl, ?_⟩
    simp only [grwKernel, grwStep]; split <;> rfl
  | mala s =>
    simp only [KernelRes.local?, Option.some.injEq] at hK; subst hK
    refine ⟨rfl, ?_⟩
    simp only [malaKernel, malaStep]; split <;> rfl
  | hmc s n m L =>
    simp only [KernelRes.local?, Option.some.injEq] at hK; subst hK
    refine ⟨rfl, ?_⟩
    simp only [hmcKernel, hmcStep]; split <;> simp
  | nf m b => simp [KernelRes.local?] at hK

/-- The exact local kernels leave the target invariant. -/
theorem kernel_step (kr : KernelRes ℝ d M) (hk : ExactSettings kr) (t : Target ℝ D d) (data : Data D) (ht : Measurable (fun x => t.val x data))
    (hg : Measurable (fun x => t.grad x data)) :
    ∃ step : (Fin d → ℝ) × ℝ → Pos ℝ d → Pos ℝ d, Measurable (fun p : Pos ℝ d × ((Fin d → ℝ) × ℝ) => step p.2 p.1) ∧
      Invariant (targetMeasure (fun x => t.val x data)) (noise d) step ∧
      ∀ (rng : Rng ℝ) K, kr.local? rng = some K → ∀ k x,
        (K k x (t.val x data) t data).pos = step (rng.normal (.child k 0) d, rng.uniform (.child k 1)) x ∧
        (K k x (t.val x data) t data).logp = t.val (K k x (t.val x data) t data).pos data := by
  haveI : SFinite (targetMeasure (fun x => t.val x data)) := by unfold targetMeasure; infer_instance
  exact ⟨localStep kr t data, localStep_measurable kr t data ht hg, (localStep_reversible kr hk t data ht hg).invariant (localStep_measurable kr t data ht hg),
    fun rng K hK k x => local_kernel_eq kr t data rng K hK k x⟩

variable {past : MeasurableSpace Ω} {sig : Key → MeasurableSpace Ω} [mΩ : MeasurableSpace Ω] {P : Measure Ω} [IsProbabilityMeasure P] {env : Ω → Env ℝ D d M O} {T : Key → Prop}

theorem noise_law (h : IdealOn T past sig P env) (k : Key) (hT : ∀ a, Desc k a → T a) :
    Measurable[info past sig (descSet k)] (fun ω => ((env ω).rng.normal (.child k 0) d, (env ω).rng.uniform (.child k 1))) ∧
    P.map (fun ω => ((env ω).rng.normal (.child k 0) d, (env ω).rng.uniform (.child k 1))) = noise d := by
  have h0 : Measurable[info past sig (descSet (.child k 0))] (fun ω => (env ω).rng.normal (.child k 0) d) :=
    (h.normal_meas _ (hT _ (.child 0 .refl)) _).mono (sig_le_info (mem_descSet .refl)) le_rfl
  have h1 : Measurable[info past sig (descSet (.child k 1))] (fun ω => (env ω).rng.uniform (.child k 1)) :=
    (h.uniform_meas _ (hT _ (.child 1 .refl))).mono (sig_le_info (mem_descSet .refl)) le_rfl
  refine ⟨(h0.mono (info_mono descSet_child) le_rfl).prodMk (h1.mono (info_mono descSet_child) le_rfl), ?_⟩
  rw [h.joint (descSet_disjoint (by decide)) h0 h1, h.normal_law _ (hT _ (.child 0 .refl)), h.uniform_law _ (hT _ (.child 1 .refl))]
  rfl

/-- Position of a serial chain after `j` steps, from any start. -/
theorem serial_iter (h : IdealOn T past sig P env) (kr : KernelRes ℝ d M) (K : Ω → LocalKernel ℝ D d)
    (hK : ∀ ω, kr.local? (env ω).rng = some (K ω)) (t : Target ℝ D d) (data : Data D) (ht : Measurable (fun x => t.val x data))
    (hg : Measurable (fun x => t.grad x data)) (μ : Measure (Pos ℝ d)) (j : ℕ) (k : Key) (hT : ∀ a, Desc k a → T a) (S : Set (Option Key))
    (hS : Disjoint S (descSet k)) (X : Ω → Pos ℝ d) (hX : Measurable[info past sig S] X) (hlaw : P.map X = μ) :
    P.map (fun ω => (iterState (localBody (K ω) t data) j (k, X ω, t.val (X ω) data)).2.1) = (stepLaw (noise d) (localStep kr t data))^[j] μ ∧
    Measurable[info past sig (S ∪ descSet k)] (fun ω => (iterState (localBody (K ω) t data) j (k, X ω, t.val (X ω) data)).2.1) := by
  have hsm := localStep_measurable kr t data ht hg
  induction j generalizing k S X μ with
  | zero => exact ⟨hlaw, hX.mono (info_mono Set.subset_union_left) le_rfl⟩
  | succ j ih =>
    obtain ⟨nm, nl⟩ := noise_law h (.child k 1) (fun a ha => hT a (desc_trans (.child 1 .refl) ha))
    have hd : Disjoint S (descSet (.child k 1)) := hS.mono_right descSet_child
    have hbody : ∀ ω, (localBody (K ω) t data (k, X ω, t.val (X ω) data)).1 =
        (.child k 0, localStep kr t data ((env ω).rng.normal (.child (.child k 1) 0) d, (env ω).rng.uniform (.child (.child k 1) 1)) (X ω),
          t.val (localStep kr t data ((env ω).rng.normal (.child (.child k 1) 0) d, (env ω).rng.uniform (.child (.child k 1) 1)) (X ω)) data) := by
      intro ω
      have := local_kernel_eq kr t data (env ω).rng (K ω) (hK ω) (.child k 1) (X ω)
      simp only [localBody, split, this.1, this.2]
    simp only [iterState, hbody]
    have hX' : Measurable[info past sig (S ∪ descSet (.child k 1))] (fun ω => localStep kr t data ((env ω).rng.normal (.child (.child k 1) 0) d, (env ω).rng.uniform (.child (.child k 1) 1)) (X ω)) :=
      hsm.comp ((hX.mono (info_mono Set.subset_union_left) le_rfl).prodMk (nm.mono (info_mono Set.subset_union_right) le_rfl))
    have := ih _ (.child k 0) (fun a ha => hT a (desc_trans (.child 0 .refl) ha)) (S ∪ descSet (.child k 1)) ?_ _ hX' (h.step_law hd hX nm hlaw nl hsm)
    · refine ⟨this.1, this.2.mono (info_mono ?_) le_rfl⟩
      refine Set.union_subset (Set.union_subset Set.subset_union_left (descSet_child.trans Set.subset_union_right)) (descSet_child.trans Set.subset_union_right)
    · exact Set.disjoint_union_left.2 ⟨hS.mono_right descSet_child, descSet_disjoint (by decide)⟩

/-- Position of a serial chain after `j` steps, from a start in the target distribution. -/
theorem serial_law (h : IdealOn T past sig P env) (kr : KernelRes ℝ d M) (hk : ExactSettings kr) (K : Ω → LocalKernel ℝ D d)
    (hK : ∀ ω, kr.local? (env ω).rng = some (K ω)) (t : Target ℝ D d) (data : Data D) (ht : Measurable (fun x => t.val x data))
    (hg : Measurable (fun x => t.grad x data)) (μ : Measure (Pos ℝ d)) (hμ : SamplesFrom μ (fun x => t.val x data)) (j : ℕ) (k : Key) (hT : ∀ a, Desc k a → T a) (S : Set (Option Key))
    (hS : Disjoint S (descSet k)) (X : Ω → Pos ℝ d) (hX : Measurable[info past sig S] X) (hlaw : P.map X = μ) :
    P.map (fun ω => (iterState (localBody (K ω) t data) j (k, X ω, t.val (X ω) data)).2.1) = μ ∧
    Measurable[info past sig (S ∪ descSet k)] (fun ω => (iterState (localBody (K ω) t data) j (k, X ω, t.val (X ω) data)).2.1) := by
  have hinv : stepLaw (noise d) (localStep kr t data) μ = μ := by
    obtain ⟨Z, rfl⟩ := hμ
    haveI : SFinite (targetMeasure (fun x => t.val x data)) := by unfold targetMeasure; infer_instance
    haveI : SFinite (noise d) := by unfold noise; infer_instance
    exact ((localStep_reversible kr hk t data ht hg).invariant (localStep_measurable kr t data ht hg)).smul Z
  have := serial_iter h kr K hK t data ht hg μ j k hT S hS X hX hlaw
  rw [Function.iterate_fixed hinv] at this
  exact this

/-- **C28.** A chain of `n` local steps (`TakeSerialSteps`) whose start has the target distribution and is independent of the draws: every one of its `n` rows has
the target distribution. -/
theorem C28_serial_rows (h : IdealDraws past sig P env) (kr : KernelRes ℝ d M) (hk : ExactSettings kr) (K : Ω → LocalKernel ℝ D d)
    (hK : ∀ ω, kr.local? (env ω).rng = some (K ω)) (t : Target ℝ D d) (data : Data D) (ht : Measurable (fun x => t.val x data))
    (hg : Measurable (fun x => t.grad x data)) (μ : Measure (Pos ℝ d)) (hμ : SamplesFrom μ (fun x => t.val x data)) (n : ℕ) (k : Key)
    (X : Ω → Pos ℝ d) (hX : Measurable[past] X) (hlaw : P.map X = μ) (j : ℕ) (hj : j < n) :
    ∃ Y : Ω → Pos ℝ d, (∀ ω, ((serialSample (K ω) t data n k (X ω))[j]?).map (·.pos) = some (Y ω)) ∧ Measurable Y ∧ P.map Y = μ := by
  have hS : Disjoint ({none} : Set (Option Key)) (descSet k) := by
    rw [Set.disjoint_left]; rintro o ho ⟨a, rfl, _⟩; simp at ho
  have := serial_law h kr hk K hK t data ht hg μ hμ (j + 1) k (fun _ _ => trivial) {none} hS X (hX.mono (past_le_info (by simp)) le_rfl) hlaw
  refine ⟨_, fun ω => ?_, this.2.mono (h.info_le _) le_rfl, this.1⟩
  have := serialSample_state (K ω) t data n k (X ω) (j + 1) hj
  exact this

end FlowMC
