import Verif.Props.Compose
import Verif.Props.ProductionExamples
/-
Non-vacuity of C94: a sampler composed by hand from flow proposals, a note in a state, a callable, and a random walk.
-/
open MeasureTheory ProbabilityTheory
open scoped ENNReal
set_option linter.unusedSectionVars false
namespace FlowMC
open Spec
namespace Ideal

/-- The resources of the hand-made sampler. -/
noncomputable def mixHeap : Heap ℝ Unit 2 Unit Unit where
  res := fun n => match n with
    | "state" => some (.state (State.new (fun k => match k with
        | "p" => some (.str "P") | "l" => some (.str "L") | "a" => some (.str "A") | _ => none)))
    | "notes" => some (.state (State.new (fun k => match k with | "phase" => some (.int 0) | _ => none)))
    | "P" => some (.buffer (Buffer.new "P" [2, 40, 2] 1))
    | "L" => some (.buffer (Buffer.new "L" [2, 40] 1))
    | "A" => some (.buffer (Buffer.new "A" [2, 40] 1))
    | "flow" => some (.kernel (.nf () 4))
    | "walk" => some (.kernel (.grw (1 / 2)))
    | "ham" => some (.kernel (.hmc (1 / 10) 3 (fun i j => if i = j then 1 else 0) (fun i j => if i = j then 1 else 0)))
    | "logpdf" => some (.logpdf ⟨target, []⟩)
    | _ => none
  pos := fun n => if n = "w" then 20 else 0

def flowStepper : TakeSteps where
  kind := .group
  ident := "f"
  logpdfName := "logpdf"
  kernelName := "flow"
  stateName := "state"
  bufferNames := ["p", "l", "a"]
  nSteps := 10

def walkStepper : TakeSteps where
  kind := .serial
  ident := "w"
  logpdfName := "logpdf"
  kernelName := "walk"
  stateName := "state"
  bufferNames := ["p", "l", "a"]
  nSteps := 7
  thinning := 2

def hamStepper : TakeSteps where
  kind := .serial
  ident := "h"
  logpdfName := "logpdf"
  kernelName := "ham"
  stateName := "state"
  bufferNames := ["p", "l", "a"]
  nSteps := 5

/-- Ten flow proposals, a note, a callable that moves a cursor, and seven random-walk steps thinned by two. -/
noncomputable def mixStrats : String → Option (Strategy ℝ Unit 2 Unit Unit)
  | "flow" => some (.takeSteps flowStepper)
  | "note" => some (.updateState ⟨"notes", ["phase"], [.int 1]⟩)
  | "rewind" => some (.lambda fun _ _ _ h => (.ok (), h.setPos "f" 0))
  | "walk" => some (.takeSteps walkStepper)
  | "ham" => some (.takeSteps hamStepper)
  | _ => none

/-- A heap of the hand-made sampler in the middle of a run. -/
def MixReady (h : Heap ℝ Unit 2 Unit Unit) : Prop :=
  (∀ n, n ≠ "P" → n ≠ "L" → n ≠ "A" → n ≠ "notes" → h.res n = mixHeap.res n) ∧ (∃ st, h.res "notes" = some (.state st)) ∧
  (∃ bP bL bA, Recorders h 2 40 "P" "L" "A" bP bL bA) ∧ h.pos "w" = 20

theorem mixReady_start : MixReady mixHeap :=
  ⟨fun _ _ _ _ _ => rfl, ⟨_, rfl⟩, ⟨_, _, _, ⟨rfl, rfl, rfl, rfl, rfl, rfl, rfl, rfl, rfl, by decide⟩⟩, rfl⟩

theorem recorders_after {s : TakeSteps} {h h' : Heap ℝ Unit 2 Unit Unit} {bP bL bA : Buffer ℝ} {rows} (hr : Recorders h 2 40 "P" "L" "A" bP bL bA)
    (he : StepEffect s h h' 2 40 "P" "L" "A" bP bL bA rows) : ∃ bP' bL' bA', Recorders h' 2 40 "P" "L" "A" bP' bL' bA' := by
  obtain ⟨bP1, p1, p2⟩ := he.pos
  obtain ⟨bL1, l1, l2⟩ := he.logp
  obtain ⟨bA1, a1, a2⟩ := he.acc
  exact ⟨bP1, bL1, bA1, p1, l1, a1, by rw [p2.same.2.2.2, hr.shapeP], by rw [l2.same.2.2.2, hr.shapeL], by rw [a2.same.2.2.2, hr.shapeA], by rw [p2.same.2.2.1, hr.dimP],
    by rw [l2.same.2.2.1, hr.dimL], by rw [a2.same.2.2.1, hr.dimA], by decide⟩

theorem pointsAt_ready {h : Heap ℝ Unit 2 Unit Unit} (hh : MixReady h) (s : TakeSteps) (hs : s.stateName = "state") (hb : s.bufferNames = ["p", "l", "a"]) : PointsAt h s "P" "L" "A" :=
  ⟨_, "p", "l", "a", [], by rw [hs, hh.1 "state" (by decide) (by decide) (by decide) (by decide)]; rfl, hb, rfl, rfl, rfl⟩

theorem mix_flow (ω : Outcome) (k : Key) (xs : List (Pos ℝ 2)) (hx : xs.length = 2) (h : Heap ℝ Unit 2 Unit Unit) (hh : MixReady h) (h0 : h.pos "f" = 0) :
    ∃ ys h', flowStepper.run (env ω) k xs ⟨(), none⟩ h = (.ok (.child k 0, ys), h') ∧ ys.length = 2 ∧ MixReady h' := by
  obtain ⟨bP, bL, bA, hr⟩ := hh.2.2.1
  obtain ⟨rows, ys, h', -, -, e, he, hl, -⟩ := group_call (env ω) (flow.lawful ω) flowStepper k xs ⟨(), none⟩ h 40 "P" "L" "A" bP bL bA (pointsAt_ready hh _ rfl rfl) (by rw [hx]; exact hr)
    (by simp only [flowStepper, h0]; decide) () 4 target ⟨rfl, (hh.1 "flow" (by decide) (by decide) (by decide) (by decide)).trans rfl,
      ⟨_, (hh.1 "logpdf" (by decide) (by decide) (by decide) (by decide)).trans rfl, rfl⟩⟩ (by decide) (by decide) (by decide)
  rw [hx] at he hl
  refine ⟨ys, h', e, hl, fun n h1 h2 h3 h4 => (he.frame n h1 h2 h3).trans (hh.1 n h1 h2 h3 h4), ?_, recorders_after hr he, (he.cursors "w" (by decide)).trans hh.2.2.2⟩
  obtain ⟨st, hst⟩ := hh.2.1
  exact ⟨st, (he.frame "notes" (by decide) (by decide) (by decide)).trans hst⟩

theorem mix_walk (ω : Outcome) (k : Key) (xs : List (Pos ℝ 2)) (hx : xs.length = 2) (h : Heap ℝ Unit 2 Unit Unit) (hh : MixReady h) :
    ∃ ys h', walkStepper.run (env ω) k xs ⟨(), none⟩ h = (.ok (.child k 0, ys), h') := by
  obtain ⟨bP, bL, bA, hr⟩ := hh.2.2.1
  obtain ⟨ys, h', e, -⟩ := serial_call (env ω) walkStepper k xs ⟨(), none⟩ h 40 "P" "L" "A" bP bL bA (pointsAt_ready hh _ rfl rfl) (by rw [hx]; exact hr)
    (by simp only [walkStepper, hh.2.2.2]; decide) (.grw (1 / 2)) _ target ⟨rfl, (hh.1 "walk" (by decide) (by decide) (by decide) (by decide)).trans rfl, rfl,
      ⟨_, (hh.1 "logpdf" (by decide) (by decide) (by decide) (by decide)).trans rfl, rfl⟩⟩ (by decide) (by decide)
  exact ⟨ys, h', e⟩

/-- The first three calls. -/
theorem mix_first (ω : Outcome) : ∃ w', Completes (env ω) mixStrats ⟨(), none⟩ ["flow", "note", "rewind"] ⟨.root 3, [start ω, start2 ω], mixHeap⟩ w' ∧ w'.xs.length = 2 ∧ MixReady w'.heap := by
  obtain ⟨ys, h1, e1, hl, hr⟩ := mix_flow ω (.root 3) [start ω, start2 ω] rfl mixHeap mixReady_start rfl
  obtain ⟨st, hst⟩ := hr.2.1
  refine ⟨⟨.child (.root 3) 0, ys, (h1.setRes "notes" (.state (st.update ["phase"] [.int 1]))).setPos "f" 0⟩, .next rfl e1 (.next rfl ?_ (.next rfl rfl (.done _))), hl, ?_⟩
  · simp only [Strategy.run, UpdateState.run, Heap.getState, Heap.get, hst]
    rfl
  · refine ⟨fun n a b c d => ?_, ?_, ?_, hr.2.2.2⟩
    · simpa [Heap.setPos, Heap.setRes, dictSet, d] using hr.1 n a b c d
    · exact ⟨_, by simp [Heap.setPos, Heap.setRes, dictSet]; rfl⟩
    · obtain ⟨bP, bL, bA, q⟩ := hr.2.2.1
      exact ⟨bP, bL, bA, ⟨q.resP, q.resL, q.resA, q.shapeP, q.shapeL, q.shapeA, q.dimP, q.dimL, q.dimA, q.ne⟩⟩

theorem mix_keeps {h : Heap ℝ Unit 2 Unit Unit} (hh : MixReady h) : KeepsSamplers mixHeap.res h := by
  intro n r hr hs
  rw [hh.1 n ?_ ?_ ?_ ?_, hr]
  all_goals
    rintro rfl
    simp only [mixHeap, Option.some.injEq] at hr
    subst hr
    exact hs.elim

theorem mix_exactFlow (k : Key) : ExactStepper (Desc k) prob sig env mixHeap.res ⟨(), none⟩ (stdNormal 2) flowStepper :=
  ⟨_, target, rfl, rfl, by simp only [target]; fun_prop, by refine measurable_pi_lambda _ fun i => ?_; simp only [target]; fun_prop, Toy.normal_samplesFrom,
    .inr ⟨rfl, fun _ _ _ _ => rfl, (), 4, stdNormal 2, _, by decide, rfl, inferInstance, by fun_prop,
      ⟨flow.lawful, fun a _ => flow.rows_meas a trivial, fun a _ => flow.rows_law a trivial, flow.logProb, flow.density⟩⟩⟩

theorem mix_exactWalk (k : Key) : ExactStepper (Desc k) prob sig env mixHeap.res ⟨(), none⟩ (stdNormal 2) walkStepper :=
  ⟨_, target, rfl, rfl, by simp only [target]; fun_prop, by refine measurable_pi_lambda _ fun i => ?_; simp only [target]; fun_prop, Toy.normal_samplesFrom,
    .inl ⟨rfl, _, rfl, trivial⟩⟩

theorem unit_diag : IsPosDiag (fun i j : Fin 2 => if i = j then (1 : ℝ) else 0) := ⟨fun i j h => if_neg h, fun i => by simp⟩
theorem unit_chol : IsCholeskyInv (fun i j : Fin 2 => if i = j then (1 : ℝ) else 0) (fun i j : Fin 2 => if i = j then (1 : ℝ) else 0) := by
  refine ⟨fun i j h => if_neg h.ne, fun i => by simp, fun i j => ?_⟩
  rw [Fin.sum_univ_two, Fin.sum_univ_two, Fin.sum_univ_two]
  fin_cases i <;> fin_cases j <;> norm_num

theorem mix_exactHam (k : Key) : ExactStepper (Desc k) prob sig env mixHeap.res ⟨(), none⟩ (stdNormal 2) hamStepper :=
  ⟨_, target, rfl, rfl, by simp only [target]; fun_prop, by refine measurable_pi_lambda _ fun i => ?_; simp only [target]; fun_prop, Toy.normal_samplesFrom,
    .inl ⟨rfl, _, rfl, unit_diag, unit_chol⟩⟩

theorem mix_exact (k : Key) (names : List String) : ∀ name ∈ names, ∀ s, mixStrats name = some s → ExactStrategy (Desc k) prob sig env mixHeap.res ⟨(), none⟩ (stdNormal 2) s := by
  intro name _ s hs
  unfold mixStrats at hs
  split at hs <;> simp only [Option.some.injEq, reduceCtorEq] at hs <;> subst hs
  · exact .inr ⟨_, rfl, mix_exactFlow k⟩
  · exact .inl trivial
  · exact .inl fun _ _ _ h => h
  · exact .inr ⟨_, rfl, mix_exactWalk k⟩
  · exact .inr ⟨_, rfl, mix_exactHam k⟩

theorem drawsFrom (k : Key) : IdealOn (Desc k) past sig prob env :=
  ⟨draws.past_le, draws.sig_le, draws.indep, fun a _ => draws.normal_meas a trivial, fun a _ => draws.normal_law a trivial, fun a _ => draws.uniform_meas a trivial,
    fun a _ => draws.uniform_law a trivial⟩

/-- The whole run, with the world before the random walk. -/
theorem mix_run : ∃ w' w'' : Outcome → World ℝ Unit 2 Unit Unit,
    (∀ ω, Completes (env ω) mixStrats ⟨(), none⟩ ["flow", "note", "rewind"] ⟨.root 3, [start ω, start2 ω], mixHeap⟩ (w' ω)) ∧ (∀ ω, (w' ω).xs.length = 2 ∧ MixReady (w' ω).heap) ∧
    (∀ ω, Completes (env ω) mixStrats ⟨(), none⟩ ["walk"] (w' ω) (w'' ω)) ∧
    ∀ ω, Completes (env ω) mixStrats ⟨(), none⟩ ["flow", "note", "rewind", "walk"] ⟨.root 3, [start ω, start2 ω], mixHeap⟩ (w'' ω) := by
  choose w' h1 h2 h3 using mix_first
  choose ys h' e using fun ω => mix_walk ω (w' ω).key (w' ω).xs (h2 ω) (w' ω).heap (h3 ω)
  have hw : ∀ ω, Completes (env ω) mixStrats ⟨(), none⟩ ["walk"] (w' ω) ⟨_, ys ω, h' ω⟩ := fun ω => .next rfl (e ω) (.done _)
  exact ⟨w', _, h1, fun ω => ⟨h2 ω, h3 ω⟩, hw, fun ω => (completes_append (as := ["flow", "note", "rewind"]) (bs := ["walk"])).2 ⟨_, h1 ω, hw ω⟩⟩

/-- Non-vacuity of C94: the second chain of the hand-made sampler is standard normal at the end, and so is its third recorded random-walk row (cell 22 of the buffer). -/
example : ∃ w' : Outcome → World ℝ Unit 2 Unit Unit,
    (∀ ω, Completes (env ω) mixStrats ⟨(), none⟩ ["flow", "note", "rewind", "walk"] ⟨.root 3, [start ω, start2 ω], mixHeap⟩ (w' ω)) ∧
    (∃ Y : Outcome → Pos ℝ 2, (∀ ω, (w' ω).xs[1]? = some (Y ω)) ∧ Measurable Y ∧ prob.map Y = stdNormal 2) ∧
    ∃ Y : Outcome → Pos ℝ 2, Measurable Y ∧ prob.map Y = stdNormal 2 ∧ ∀ ω, ∃ b, (w' ω).heap.res "P" = some (.buffer b) ∧ ∀ a : Fin 2, b.data.get [1, 22, a] = Y ω a := by
  obtain ⟨w', w'', h1, h2, h3, h4⟩ := mix_run
  choose bP bL bA hrec using fun ω => (h2 ω).2.2.2.1
  exact ⟨w'', h4,
    C94_composition (.root 3) (drawsFrom _) mixHeap.res ⟨(), none⟩ (stdNormal 2) mixStrats ["flow", "note", "rewind", "walk"] (mix_exact _ _) _ _ (fun _ => rfl) (fun _ => mix_keeps mixReady_start)
      1 start2 (fun _ => rfl) start2_known start2_law h4,
    C94_recorded (.root 3) (drawsFrom _) mixHeap.res ⟨(), none⟩ (stdNormal 2) mixStrats ["flow", "note", "rewind"] (mix_exact _ _) _ w' w'' (fun _ => rfl) (fun _ => mix_keeps mixReady_start)
      1 start2 (fun _ => rfl) start2_known start2_law h1 "walk" walkStepper rfl (mix_exactWalk _) (by decide) h3 2 40 20 (fun ω => (h2 ω).1) "P" "L" "A" bP bL bA
      (fun ω => pointsAt_ready (h2 ω).2 _ rfl rfl) hrec (fun ω => (h2 ω).2.2.2.2) (by decide) 2 (by decide)⟩

/-- Non-vacuity of C94 (convergence): started from a fixed point, the same run is within `(1/2)^10` of the target (the flow is at least half the target everywhere). -/
example (x : Pos ℝ 2) (w' : Outcome → World ℝ Unit 2 Unit Unit)
    (hr : ∀ ω, Completes (env ω) mixStrats ⟨(), none⟩ ["flow", "note", "rewind", "walk"] ⟨.root 3, [start ω, x], mixHeap⟩ (w' ω)) :
    ∃ Y : Outcome → Pos ℝ 2, (∀ ω, (w' ω).xs[1]? = some (Y ω)) ∧ Measurable Y ∧ CloseInLaw prob Y (stdNormal 2) ((1 - 1 / 2) ^ 10) :=
  C94_converges (.root 3) (drawsFrom _) mixHeap.res ⟨(), none⟩ (stdNormal 2) mixStrats ["flow", "note", "rewind", "walk"] (mix_exact _ _) 2 (by norm_num) (fun n => if n = "flow" then 10 else 0)
    (by
      intro name _ s hs
      by_cases hn : name = "flow"
      · subst hn
        simp only [mixStrats, Option.some.injEq] at hs
        refine .inr ⟨_, hs.symm, ⟨rfl, ?_⟩, by decide⟩
        intro lr t m b h1 h2 h3 ω y
        obtain rfl : (.logpdf ⟨target, []⟩ : Resource ℝ Unit 2 Unit Unit) = lr := Option.some.inj h1
        obtain rfl : target = t := Option.some.inj h2
        have : 0 ≤ density (fun x => target.val x ⟨(), none⟩) y := by unfold density; positivity
        change _ ≤ 2 * density (fun x => target.val x ⟨(), none⟩) y
        linarith
      · exact .inl (by simp [hn]))
    _ w' (fun _ => rfl) (fun _ => mix_keeps mixReady_start) 1 (fun _ => x) (fun _ => rfl) measurable_const hr

end Ideal
end FlowMC
