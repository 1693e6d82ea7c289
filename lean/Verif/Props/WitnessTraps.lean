import Verif.Props.WitnessRuns
import Verif.Props.Traps
import Verif.Props.BundleTraining
/-
Non-vacuity of C111.
-/
set_option linter.unusedSectionVars false
namespace FlowMC
open Spec
namespace Toy
open XR

/-- A log-density that is NaN at the origin, `+inf` at 7, an ordinary number elsewhere, `-inf` at infinite or NaN positions; the gradient is NaN at 3. -/
noncomputable def trapTarget : Target XR Unit 1 where
  val x _ := match x 0 with
    | fin a => if a = 0 then nan else if a = 7 then pinf else if a < 0 then ninf else fin (-a)
    | _ => ninf
  grad x _ := match x 0 with
    | fin a => if a = 3 then fun _ => nan else fun _ => fin (-1)
    | _ => fun _ => fin 0

/-- The bundle of `xrCfg` on that log-density. -/
noncomputable def trapCfg : BundleCfg XR Unit 1 Unit Unit := { xrCfg with logpdf := trapTarget }

theorem trapCfg_good : GoodCfg trapCfg := ⟨by decide, by decide, by decide, by decide, by decide, by decide, by decide⟩

theorem trap_undefined (x : Pos XR 1) (i : Fin 1) (hx : BufNum.isFinite (x i) = false) : Ieee.Bad (trapTarget.val x ⟨(), none⟩) := by
  obtain rfl : i = 0 := Subsingleton.elim _ _
  right
  simp only [trapTarget]
  cases h : x 0 with
  | fin a => rw [h] at hx; simp [BufNum.isFinite] at hx
  | _ => rfl

/-- The second chain starts at the origin, where the log-density is NaN. -/
example : Frozen (trapCfg.logpdf.val (fun _ => fin 0) ⟨(), none⟩) := by left; simp [trapCfg, trapTarget, Ieee.isNaN]
example : Frozen (trapCfg.logpdf.val (fun _ => fin 7) ⟨(), none⟩) := by right; simp [trapCfg, trapTarget, Ieee.posInf]
example : ¬ Frozen (trapCfg.logpdf.val (fun _ => fin 3) ⟨(), none⟩) := by
  have : trapCfg.logpdf.val (fun _ => fin 3) ⟨(), none⟩ = fin (-3) := by simp only [trapCfg, trapTarget]; norm_num
  rw [this]; rintro (h | h) <;> cases h

/-- A complete run from there, and what C111 says of it. -/
example : ∃ s', (fresh (malaBundle trapCfg)).sample xrEnv xrInit ⟨(), none⟩ = (.ok (), s') ∧
    ∃ bT lT bP lP, s'.heap.res "positions_training" = some (.buffer bT) ∧ s'.heap.res "log_prob_training" = some (.buffer lT) ∧
      s'.heap.res "positions_production" = some (.buffer bP) ∧ s'.heap.res "log_prob_production" = some (.buffer lP) ∧
      ∀ j < trapCfg.nTrainSteps + trapCfg.nProdSteps, (historyPos trapCfg.nTrainSteps bT.data bP.data 1 j : Pos XR 1) = fun _ => fin 0 := by
  obtain ⟨s', h⟩ := C66_never_raises (V := Unit) xrEnv xrEnv_lawful trapCfg trapCfg_good (by decide) (by decide) ⟨(), none⟩ (fun _ _ _ _ => rfl) trap_undefined 1 2 (.root 7) []
    (fresh (malaBundle trapCfg)) rfl xrInit rfl xr_start
  obtain ⟨bT, lT, bP, lP, e1, e2, e3, e4, -, g⟩ := C111_run (V := Unit) xrEnv xrEnv_lawful trapCfg trapCfg_good (fun _ _ _ _ => rfl) ⟨(), none⟩ 1 2 (.root 7) []
    (fresh (malaBundle trapCfg)) s' rfl xrInit rfl h
  refine ⟨s', h, bT, lT, bP, lP, e1, e2, e3, e4, fun j hj => (g 1 _ j rfl ?_ hj).1⟩
  left; simp [trapCfg, trapTarget, Ieee.isNaN]

/-- C111_frozen_step, C111_frozen_chain: an HMC chain started at 7. -/
example : (serialSample (hmcKernel xrEnv.rng (fin 1) 2 (fun _ _ => fin 1) (fun _ _ => fin 1)) trapTarget ⟨(), none⟩ 5 (.root 1) (fun _ => fin 7)).Pairwise Repeats ∧
    ∀ o ∈ serialSample (hmcKernel xrEnv.rng (fin 1) 2 (fun _ _ => fin 1) (fun _ _ => fin 1)) trapTarget ⟨(), none⟩ 5 (.root 1) (fun _ => fin 7), o.pos = fun _ => fin 7 := by
  have h := C111_frozen_chain (M := Unit) xrEnv.rng (.hmc (fin 1) 2 (fun _ _ => fin 1) (fun _ _ => fin 1)) _ rfl trapTarget ⟨(), none⟩ 5 (.root 1) (fun _ => fin 7)
  refine ⟨h.1, fun o ho => ?_⟩
  rw [h.2 (by right; simp [trapTarget, Ieee.posInf]) o ho]
example := C111_frozen_step (M := Unit) xrEnv.rng (.grw (fin 1)) _ rfl (.root 1) (fun _ => fin 0) trapTarget ⟨(), none⟩ (by left; simp [trapTarget, Ieee.isNaN])

/-- C111_frozen_flow: the flow sampler at the origin. -/
example : ∃ rows, groupSample xrEnv () 2 trapTarget ⟨(), none⟩ 5 (.root 1) (fun _ => fin 0) = .ok rows ∧ rows.length = 5 ∧ ∀ o ∈ rows, o.pos = fun _ => fin 0 := by
  obtain ⟨rows, h, hl⟩ := groupSample_ok xrEnv xrEnv_lawful () 2 (by decide) trapTarget ⟨(), none⟩ 5 (.root 1) (fun _ => fin 0)
  refine ⟨rows, h, hl, fun o ho => ?_⟩
  rw [(C111_frozen_flow xrEnv () 2 trapTarget ⟨(), none⟩ 5 (.root 1) (fun _ => fin 0) rows h).2 (Or.inl (by left; simp [trapTarget, Ieee.isNaN])) o ho]

/-- C111_gradient_chain: at 3 the log-density is -3, the gradient NaN. -/
example := C111_gradient_chain xrEnv.rng (fin 1) trapTarget ⟨(), none⟩ 5 (.root 1) (fun _ => fin 3) 0 (by simp [trapTarget, Ieee.isNaN])

/-- C111_escape_grw: from -1 (log-density `-inf`) to 1. -/
example : grwStep (d := 1) (fin 1) trapTarget ⟨(), none⟩ (fun _ => fin 2) (fin 0) (fun _ => fin (-1)) (trapTarget.val (fun _ => fin (-1)) ⟨(), none⟩) =
    ⟨grwProposal (fin 1) (fun _ => fin (-1)) (fun _ => fin 2), trapTarget.val (grwProposal (fin 1) (fun _ => fin (-1)) (fun _ => fin 2)) ⟨(), none⟩, true⟩ := by
  have hp : grwProposal (d := 1) (fin 1) (fun _ => fin (-1)) (fun _ => fin 2) = fun _ => fin 1 := by
    funext i; change fin (-1 + 2 * 1) = fin 1; norm_num
  refine C111_escape_grw _ _ _ _ _ _ ?_ ?_ (Or.inr ?_)
  · simp only [trapTarget]; norm_num; rfl
  · rw [hp]; exact ⟨-1, by simp only [trapTarget]; norm_num⟩
  · simp [Transc.log, Ieee.negInf]

/-- C111_escape_flow. -/
example := C111_escape_flow (d := 1) (fin 0) ⟨fun _ => fin (-1), ninf, fin 2⟩ (fun _ => fin 1, fin (-1), fin 3) rfl ⟨_, rfl⟩
  (Or.inr (by simp [Transc.log, Ieee.negInf])) ⟨3 + -2, rfl⟩

/-- C111_enter_posInf: from 6 to 7. -/
example : (grwStep (d := 1) (fin 1) trapTarget ⟨(), none⟩ (fun _ => fin 1) (fin 0) (fun _ => fin 6) (fin (-6))).acc = true := by
  have hp : grwProposal (d := 1) (fin 1) (fun _ => fin 6) (fun _ => fin 1) = fun _ => fin 7 := by
    funext i; change fin (6 + 1 * 1) = fin 7; norm_num
  have := C111_enter_posInf (d := 1) (fin 1) trapTarget ⟨(), none⟩ (fun _ => fin 1) (fin 0) (fun _ => fin 6) (fin (-6)) ⟨_, rfl⟩
    (by rw [hp]; simp [trapTarget, Ieee.posInf]) (Or.inr (by simp [Transc.log, Ieee.negInf]))
  rw [this]

/-- A half line: log-density `-inf` below 0, gradient -1. -/
noncomputable def halfLine : Target XR Unit 1 where
  val x _ := match x 0 with
    | fin a => if a < 0 then ninf else fin (-a)
    | _ => ninf
  grad _ _ := fun _ => fin (-1)

/-- C111_escape_mala_exact (and C111_escape_mala): from -1, draw 3, to 3/2. -/
example : (malaStep (fin 1) halfLine ⟨(), none⟩ (emb fun _ => 3) (fin (1/2)) (emb fun _ => -1) ninf).acc = true := by
  have hy : halfLine.val (emb (malaProposal 1 (fun _ : Fin 1 => (-1 : ℝ)) (fun _ => -1) fun _ => 3)) ⟨(), none⟩ = .fin (-(3/2)) := by
    simp only [halfLine, emb, malaProposal, malaMean, two]; norm_num
  rw [C111_escape_mala_exact 1 one_ne_zero halfLine ⟨(), none⟩ (fun _ => 3) (fun _ => -1) (fun _ => -1) (fun _ => -1) (1/2) _ ninf (by norm_num)
    (by simp only [halfLine, emb]; norm_num) rfl hy rfl]

/-- C111_escape_hmc_exact (and C111_escape_hmc): one leapfrog step from -1 with momentum 3. -/
example : ∃ y v, hmcStep (fin 1) 0 (embMat fun _ _ => 1) (embMat fun _ _ => 1) halfLine ⟨(), none⟩ (emb fun _ => 3) (fin (1/2)) (emb fun _ : Fin 1 => -1) ninf =
    ⟨y, fin v, true⟩ := by
  have hl : (leapfrogStep 1 0 (fun _ _ => 1) (fun _ _ => 1) ((fun _ : Fin 1 => (-1 : ℝ)), hmcMomentum (fun _ _ => 1) fun _ => 3)).1 = fun _ => 3/2 := by
    funext i
    simp only [leapfrogStep, List.range_succ, List.range_zero, List.nil_append, List.foldl_append, List.foldl_cons, List.foldl_nil, leapfrogBody, leapfrogCoef,
      hmcKineticGrad, hmcMomentum, sumFin, two]
    norm_num
  refine ⟨_, -(3/2), C111_escape_hmc_exact 1 0 (fun _ _ => 1) (fun _ _ => 1) halfLine ⟨(), none⟩ (fun _ _ => 1) (fun y => ?_) (fun _ => 3) (fun _ => -1) (1/2) _ (by norm_num) ?_ ?_⟩
  · funext i; change fin (- -1) = fin 1; norm_num
  · simp only [halfLine, emb]; norm_num
  · rw [hl]; simp only [halfLine, emb]; norm_num

/-- C111_gradient_entered applies to that accepted step: the gradient at 3/2 is an ordinary number. -/
example (k : Key) := C111_gradient_entered (M := Unit) xrEnv.rng (.mala (fin 1)) _ rfl (fun _ h => by cases h) k (fun _ => fin 2) (fin (-2)) halfLine ⟨(), none⟩

/-- C111_tempering (and C111_exchange): a call of the tempering strategy on the resources of the tempered bundle; the second chain, at the origin, stays. -/
example : ∃ k' ys h', (ptStrat trapCfg xrPT).run xrEnv (.root 2) xrInit.atleast2d ⟨(), none⟩ ⟨ptResources trapCfg xrPT, fun _ => 0⟩ = (.ok (k', ys), h') ∧
    ys[1]? = some fun _ => fin 0 := by
  obtain ⟨pb, tb, q, vs, site, ⟨st, hst, -, htr⟩, -⟩ := (ptInv_fresh trapCfg xrPT (by decide) (.root 2) xrInit.atleast2d rfl (fun _ => 0)).site (by decide) xrEnv
  have hq : q = false := by
    have h0 : (⟨ptResources trapCfg xrPT, fun _ => 0⟩ : Heap XR Unit 1 Unit Unit).res "sampler_state" = some (.state initialState) := rfl
    rw [h0] at hst
    simp only [Option.some.injEq, Resource.state.injEq] at hst
    subst hst
    cases q with
    | false => rfl
    | true => simp [initialState, State.new] at htr
  subst hq
  obtain ⟨k', ys, h', -, hrun, -⟩ := C35_flag_on xrEnv (ptStrat trapCfg xrPT) (.root 2) xrInit.atleast2d ⟨(), none⟩ _ _ _ _ _ _ _ _ site
  exact ⟨k', ys, h', hrun, C111_tempering xrEnv _ _ _ _ _ _ _ _ hrun _ site.density 1 _ rfl (by
    change Ieee.isNaN (trapTarget.val (fun _ => fin 0) ⟨(), none⟩); simp [trapTarget, Ieee.isNaN])⟩

end Toy
end FlowMC
