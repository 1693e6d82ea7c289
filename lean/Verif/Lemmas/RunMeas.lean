import Verif.Lemmas.TrainMeas
import Verif.Lemmas.Adaptive
/-
The blocks recorded in training are measurable functions of the draws made in training.
-/
open MeasureTheory
set_option linter.unusedSectionVars false
namespace FlowMC
open Spec

variable {Ω D M O Z : Type} {d : ℕ} [mB : MeasurableSpace Ω] [MeasurableSpace M] [MeasurableSpace O] [MeasurableSpace Z]

/-- Draws made with the keys `U` are measurable (with respect to the information `mB`). -/
structure DrawSetup (U : Key → Prop) (env : Ω → Env ℝ D d M O) (push : M → Z → Pos ℝ d) (lnf : M → Pos ℝ d → ℝ) (G : Set M) : Prop where
  lawful : ∀ ω, (env ω).ops.Lawful
  normal : ∀ k, U k → ∀ n, Measurable fun ω => (env ω).rng.normal k n
  uniform : ∀ k, U k → Measurable fun ω => (env ω).rng.uniform k
  pushMeas : Measurable fun p : M × Z => push p.1 p.2
  lnfMeas : Measurable fun p : M × Pos ℝ d => lnf p.1 p.2
  rows : ∀ k, U k → ∀ n, ∃ z : Ω → Fin n → Z, Measurable z ∧ ∀ ω, ∀ m ∈ G, ∀ i : Fin n, ((env ω).ops.sample m k n).getD i 0 = push m (z ω i)
  logProb : ∀ ω, ∀ m ∈ G, (env ω).ops.logProb m = lnf m

variable {U : Key → Prop} {env : Ω → Env ℝ D d M O} {push : M → Z → Pos ℝ d} {lnf : M → Pos ℝ d → ℝ} {G : Set M}

theorem DrawSetup.serial (h : DrawSetup U env push lnf G) (step : ℝ) (t : Target ℝ D d) (data : Data D) (ht : Measurable (fun x => t.val x data))
    (hg : Measurable (fun x => t.grad x data)) (j : ℕ) : ∀ (k : Key) (_ : ∀ a, Desc k a → U a) (X : Ω → Pos ℝ d) (_ : Measurable X),
    Measurable fun ω => (iterState (localBody (fun k x lp t data => malaKernel (env ω).rng step k x lp t data) t data) j (k, X ω, t.val (X ω) data)).2.1 := by
  have hsm := localStep_measurable (.mala step : KernelRes ℝ d M) t data ht hg
  induction j with
  | zero => intro k _ X hX; exact hX
  | succ j ih =>
    intro k hk X hX
    have hbody : ∀ ω, (localBody (fun k x lp t data => malaKernel (env ω).rng step k x lp t data) t data (k, X ω, t.val (X ω) data)).1 =
        (.child k 0, localStep (.mala step : KernelRes ℝ d M) t data ((env ω).rng.normal (.child (.child k 1) 0) d, (env ω).rng.uniform (.child (.child k 1) 1)) (X ω),
          t.val (localStep (.mala step : KernelRes ℝ d M) t data ((env ω).rng.normal (.child (.child k 1) 0) d, (env ω).rng.uniform (.child (.child k 1) 1)) (X ω)) data) := by
      intro ω
      have := local_kernel_eq (.mala step : KernelRes ℝ d M) t data (env ω).rng _ rfl (.child k 1) (X ω)
      simp only [localBody, split, this.1, this.2]
    simp only [iterState, hbody]
    refine ih (.child k 0) (fun a ha => hk a (desc_trans desc_child_self ha)) _ ?_
    exact Measurable.comp hsm (hX.prodMk ((h.normal _ (hk _ (desc_trans desc_child_self desc_child_self)) d).prodMk (h.uniform _ (hk _ (desc_trans desc_child_self desc_child_self)))))

theorem DrawSetup.base (h : DrawSetup U env push lnf G) (batch : ℕ) (hb : 0 < batch) (k : Key) (hT : ∀ a, Desc k a → U a) (n : ℕ) :
    ∃ z : Ω → Fin n → Z, Measurable z ∧ ∀ ω, ∀ m ∈ G, ∀ i : Fin n, flowProposal (env ω).ops m batch k n i = push m (z ω i) := by
  have hT' : ∀ i, U (stepKey k i) := fun i => hT _ (.child 1 (desc_carryKey k i))
  by_cases hbn : batch < n
  · set nb := ceilDiv' n batch with hnb
    set s := ceilDiv' n nb with hsd
    have hn : 0 < n := by omega
    have h1 : 0 < nb := ceilDiv'_pos n batch hb hn
    have h2 : n ≤ s * nb := ceilDiv'_mul_ge n nb h1
    have hs : 0 < s := ceilDiv'_pos n nb h1 hn
    have e : ∀ ω m (i : Fin n), flowProposal (env ω).ops m batch k n i = ((env ω).ops.sample m (stepKey k (i / s)) s).getD (i % s) 0 := by
      intro ω m i
      have hi : i.1 < nb * s := by have := i.2; rw [Nat.mul_comm]; omega
      rw [← flowBatches_getD _ (h.lawful ω) m s nb k hs i hi]
      simp only [flowProposal, sampleFlow, if_pos hbn]
      rw [← hnb, ← hsd, ← List.map_flatten, ← List.map_take, List.map_map, show ((fun x : Pos ℝ d × ℝ => x.1) ∘ fun x => (x, (env ω).ops.logProb m x)) = id from rfl, List.map_id]
      simp [List.getD, List.getElem?_take, i.2]
    choose z zm ze using fun b => h.rows (stepKey k b) (hT' b) s
    refine ⟨fun ω i => z (i.1 / s) ω ⟨i.1 % s, Nat.mod_lt _ hs⟩, measurable_pi_lambda _ fun i => (measurable_pi_apply _).comp (zm _), ?_⟩
    intro ω m hm i
    rw [e]
    exact ze _ ω m hm ⟨i.1 % s, Nat.mod_lt _ hs⟩
  · obtain ⟨z, zm, ze⟩ := h.rows k (hT k .refl) n
    refine ⟨z, zm, fun ω m hm i => ?_⟩
    rw [← ze ω m hm i]
    simp only [flowProposal, sampleFlow, if_neg hbn]
    rw [List.map_map, show ((fun x : Pos ℝ d × ℝ => x.1) ∘ fun x => (x, (env ω).ops.logProb m x)) = id from rfl, List.map_id]

theorem DrawSetup.sweep (h : DrawSetup U env push lnf G) (batch : ℕ) (hb : 0 < batch) (t : Target ℝ D d) (data : Data D) (ht : Measurable (fun x => t.val x data))
    (m : Ω → M) (hm : Measurable m) (hG : ∀ ω, m ω ∈ G) (n : ℕ) (k : Key) (hT : ∀ a, Desc k a → U a) (X : Ω → Pos ℝ d) (hX : Measurable X) (j : ℕ) :
    Measurable fun ω => sweepAt (flowStep t data (lnf (m ω))) j n (X ω) (fun i : Fin n => flowProposal (env ω).ops (m ω) batch (.child k 1) n i)
        (fun i : Fin n => (env ω).rng.uniform (stepKey (.child k 0) i)) := by
  obtain ⟨z, zm, ze⟩ := h.base batch hb (.child k 1) (fun a ha => hT a (desc_trans desc_child_self ha)) n
  have um : Measurable fun ω => (fun i : Fin n => (env ω).rng.uniform (stepKey (.child k 0) i)) :=
    measurable_pi_lambda _ fun i => h.uniform _ (hT _ (desc_trans desc_child_self (.child 1 (desc_carryKey _ _))))
  have hsm := onSndAt_measurable (pushStep_measurable t data ht h.pushMeas h.lnfMeas m hm)
  have hmeas := sweepAt_measurable (onSndAt (pushStep t data push lnf m)) hsm j n
  have e : ∀ ω, sweepAt (flowStep t data (lnf (m ω))) j n (X ω) (fun i : Fin n => flowProposal (env ω).ops (m ω) batch (.child k 1) n i)
        (fun i : Fin n => (env ω).rng.uniform (stepKey (.child k 0) i)) =
      (sweepAt (onSndAt (pushStep t data push lnf m)) j n (ω, X ω) (z ω) (fun i : Fin n => (env ω).rng.uniform (stepKey (.child k 0) i))).2 := by
    intro ω
    rw [sweepAt_onSndAt]
    simp only [ze ω _ (hG ω)]
    exact sweepAt_push _ (push (m ω)) j n (X ω) (z ω) _
  simp only [e]
  have h2 : Measurable fun p : (Ω × Pos ℝ d) × ((Fin n → Z) × (Fin n → ℝ)) => (sweepAt (onSndAt (pushStep t data push lnf m)) j n p.1 p.2.1 p.2.2).2 :=
    measurable_snd.comp hmeas
  have h3 : Measurable fun ω : Ω => (((ω, X ω), (z ω, fun i : Fin n => (env ω).rng.uniform (stepKey (.child k 0) i))) : (Ω × Pos ℝ d) × ((Fin n → Z) × (Fin n → ℝ))) :=
    (measurable_id.prodMk hX).prodMk (zm.prodMk um)
  exact h2.comp h3

/-- Present and measurable. -/
def MV (f : Ω → Option (Pos ℝ d)) : Prop := ∃ X : Ω → Pos ℝ d, Measurable X ∧ ∀ ω, f ω = some (X ω)

variable [BufNum ℝ]

theorem DrawSetup.localBlock (h : DrawSetup U env push lnf G) (c : BundleCfg ℝ D d M O) (hc : GoodCfg c) (data : Data D) (ht : Measurable (fun x => c.logpdf.val x data))
    (hg : Measurable (fun x => c.logpdf.grad x data)) (k : Key) (hk : ∀ a, Desc (.child k 1) a → U a) (xs : Ω → List (Pos ℝ d)) (b : Ω → Block ℝ d) (ys : Ω → List (Pos ℝ d))
    (hb : ∀ ω, LocalBlock (env ω) c data k (xs ω) (b ω) (ys ω)) (i : ℕ) (hX : MV fun ω => (xs ω)[i]?) (j : ℕ) (hj : j < rowsPerCall c true) :
    MV fun ω => (cellOf (b ω).rows i j).map (·.pos) := by
  obtain ⟨X, hXm, hXi⟩ := hX
  have hj' : j * c.localThin < c.nLocal := by
    refine lt_of_lt_ceil hc.localThin hc.nLocal ?_
    rw [ceilDiv'_dvd _ _ hc.localThin hc.localDvd]; exact hj
  refine ⟨_, h.serial c.stepSize c.logpdf data ht hg (j * c.localThin + 1) (.child (.child k 1) i) (fun a ha => hk a (desc_trans desc_child_self ha)) X hXm, fun ω => ?_⟩
  simp only []
  rw [cellOf, (hb ω).2.2.2 i (X ω) (hXi ω), Option.bind_some, everyNth_getElem? _ hc.localThin]
  exact serialSample_state _ c.logpdf data c.nLocal _ (X ω) (j * c.localThin + 1) hj'

theorem DrawSetup.globalBlock (h : DrawSetup U env push lnf G) (c : BundleCfg ℝ D d M O) (hc : GoodCfg c) (hig : IgnoresNSteps c.logpdf) (data : Data D) (ht : Measurable (fun x => c.logpdf.val x data))
    (m : Ω → M) (hm : Measurable m) (hG : ∀ ω, m ω ∈ G) (k : Key) (hk : ∀ a, Desc (.child k 1) a → U a) (xs : Ω → List (Pos ℝ d)) (b : Ω → Block ℝ d) (ys : Ω → List (Pos ℝ d))
    (hb : ∀ ω, GlobalBlock (env ω) c data k (m ω) (xs ω) (b ω) (ys ω)) (i : ℕ) (hX : MV fun ω => (xs ω)[i]?) (j : ℕ) (hj : j < rowsPerCall c false) :
    MV fun ω => (cellOf (b ω).rows i j).map (·.pos) := by
  obtain ⟨X, hXm, hXi⟩ := hX
  have hj' : j * c.globalThin < c.nGlobal := by
    refine lt_of_lt_ceil hc.globalThin hc.nGlobal ?_
    rw [ceilDiv'_dvd _ _ hc.globalThin hc.globalDvd]; exact hj
  choose r hr hri using fun ω => (hb ω).2.2.2 i (X ω) (hXi ω)
  refine ⟨_, h.sweep c.nfBatch hc.nfBatch c.logpdf data ht m hm hG c.nGlobal (.child (.child k 1) i) (fun a ha => hk a (desc_trans desc_child_self ha)) X hXm (j * c.globalThin + 1), fun ω => ?_⟩
  simp only []
  rw [cellOf, hri ω, Option.bind_some, everyNth_getElem? _ hc.globalThin]
  obtain ⟨r', e, -, hr'⟩ := group_sweep (env ω) (h.lawful ω) (m ω) c.nfBatch hc.nfBatch c.logpdf hig data c.nGlobal (.child (.child k 1) i) (X ω)
  rw [hr ω, Except.ok.injEq] at e
  rw [e, hr' _ hj', h.logProb ω _ (hG ω)]

end FlowMC
