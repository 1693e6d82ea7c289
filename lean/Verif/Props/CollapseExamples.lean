import Verif.Props.CollapseReal
import Verif.Props.ProductionExamples
/-
C92: a concrete case of every hypothesis.
-/
set_option linter.unusedSectionVars false
namespace FlowMC
open Spec
noncomputable section

/-- Two dimensions, one coupling layer whose conditioner is `tanh` of a weight times the first coordinate, standard normal base. -/
def exArch (w : Unit → XR) : Gen.Flow XR 2 where
  layers := [⟨fun x c => (fun i => (x i + c 0) * Transc.exp (Transc.tanh (w () * c 0)), fun _ => Transc.tanh (w () * c 0)), fun x c => (fun i => x i * Transc.exp (-Transc.tanh (w () * c 0)) - c 0, fun _ => -Transc.tanh (w () * c 0)), fun i => if i = 0 then 1 else 0⟩]
  invLayers := [⟨fun x c => (fun i => (x i + c 0) * Transc.exp (Transc.tanh (w () * c 0)), fun _ => Transc.tanh (w () * c 0)), fun x c => (fun i => x i * Transc.exp (-Transc.tanh (w () * c 0)) - c 0, fun _ => -Transc.tanh (w () * c 0)), fun i => if i = 0 then 1 else 0⟩]
  baseLogProb x := isoNormLogpdf x (fun _ => .fin 0) (.fin 1)
  baseSample _ n := List.replicate n (fun _ => .fin 1)
  dataMean := fun _ => 0
  dataVar := fun _ => 1

/-- A gradient that is 1 at the weight and 0 at the statistics. -/
def exGrad (_ : Gen.Params 2 Unit → XR) (_ : List (Pos XR 2)) : Gen.Params 2 Unit → XR
  | .inr (.inr _) => .fin 1
  | _ => 0

theorem exArch_base (w : Unit → XR) : PropagatesNonFinite (exArch w).baseLogProb := C92_base (fun _ => .fin 0) (fun _ => ⟨0, rfl⟩) 1 one_pos
theorem exGrad_stops : StopsAtStats exGrad := fun _ _ _ => rfl

/-- The operations of that flow with the optimizer's literals. -/
def exFlowOps : FlowOps XR 2 (Gen.Params 2 Unit → XR) (Gen.AdamState XR (Gen.Params 2 Unit)) :=
  Gen.flowOps exArch exGrad [.inr (.inr ())] (.fin (1 / 1000)) (.fin (9 / 10)) (.fin (999 / 1000)) (.fin (1 / 10 ^ 8)) (.fin (1 / 10000))

/-- Two rows whose first coordinates agree. -/
def exData : List (Pos XR 2) := [fun i => if i = 0 then .fin 3 else .fin 1, fun i => if i = 0 then .fin 3 else .fin 5]

theorem exData_constant : ConstantCoordinate exData := ⟨0, 3, by intro r hr; simp only [exData, List.mem_cons, List.not_mem_nil, or_false] at hr; rcases hr with rfl | rfl <;> rfl⟩

/-- A fresh flow: mean 0, variance 1, weight 1. -/
def exParams : Gen.Params 2 Unit → XR
  | .inl _ => 0
  | _ => 1

/-- `C92_logProb`, `C92_proposals`: setting the statistics of `exData` makes a collapsed flow. -/
theorem exCollapsed : Collapsed (Gen.flowOf exArch (exFlowOps.setStats exParams exData)) := by
  obtain ⟨i, a, h⟩ := exData_constant
  exact ⟨i, rowVar_constant exData i a h⟩

example (x : Pos XR 2) : (Gen.flowOf exArch (exFlowOps.setStats exParams exData)).logProb x = .nan ∨ (Gen.flowOf exArch (exFlowOps.setStats exParams exData)).logProb x = .ninf :=
  C92_logProb (Gen.flowOf exArch (exFlowOps.setStats exParams exData)) (exArch_base (fun j => (exFlowOps.setStats exParams exData) (.inr (.inr j)))) exCollapsed x

example (k : Key) : ∃ y, y ∈ (Gen.flowOf exArch (exFlowOps.setStats exParams exData)).sample k 5 ∧ (Gen.flowOf exArch (exFlowOps.setStats exParams exData)).logProb y = .nan := by
  have hne : ∃ y, y ∈ (Gen.flowOf exArch (exFlowOps.setStats exParams exData)).sample k 5 := by
    refine List.exists_mem_of_ne_nil _ ?_
    simp [Gen.Flow.sample, Gen.flowOf, exArch]
  obtain ⟨y, hy⟩ := hne
  exact ⟨y, hy, C92_proposals (Gen.flowOf exArch (exFlowOps.setStats exParams exData)) (exArch_base (fun j => (exFlowOps.setStats exParams exData) (.inr (.inr j)))) exCollapsed k 5 y hy⟩

/-- Draws for the examples. -/
def exCollapseRng : Rng XR := ⟨fun _ _ _ => .fin 0, fun _ => .fin (1 / 2), fun _ n => List.range n, fun _ n m => List.replicate m 0⟩

/-- `C92_step`, `C92_optimizerState`, `C92_train`: two epochs with batches of one row. -/
example (k : Key) : ∃ r, train exCollapseRng exFlowOps (.fin (10 ^ 9)) k exParams Gen.AdamState.init exData 2 1 = .ok r ∧ r.model = exParams ∧ r.losses.length = 2 ∧ ∀ l ∈ r.losses, l = .nan ∨ l = .pinf := by
  refine ⟨_, rfl, ?_⟩
  obtain ⟨h1, -, h3, h4⟩ := C92_train exGrad_stops exArch_base exCollapseRng (.fin (10 ^ 9)) k exParams Gen.AdamState.init (C92_optimizerState (arch := exArch) (idx := []) (lr := 0) (b1 := 0) (b2 := 0) (eps := 0) (wd := 0) exGrad_stops).1 exData exData_constant 2 1
    _ rfl
  exact ⟨h1, h3, h4⟩

example (o : Gen.AdamState XR (Gen.Params 2 Unit)) (ho : OptimizerState o) : (exFlowOps.trainStep (exFlowOps.setStats exParams exData) o exData).1 = .nan ∨ (exFlowOps.trainStep (exFlowOps.setStats exParams exData) o exData).1 = .pinf :=
  (C92_step exGrad_stops exArch_base _ o exData exCollapsed ho).1

/-- `C92_sweep`: three proposals of the collapsed flow. -/
example (D : Type) (t : Target XR D 2) (data : Data D) (k : Key) (x : Pos XR 2) :
    ∃ rows, groupSample ⟨exCollapseRng, exFlowOps, .fin (10 ^ 9)⟩ (exFlowOps.setStats exParams exData) 10 t data 3 k x = .ok rows ∧ rows.length = 3 ∧ ∀ o ∈ rows, o.pos = x := by
  have hl : (groupSample ⟨exCollapseRng, exFlowOps, .fin (10 ^ 9)⟩ (exFlowOps.setStats exParams exData) 10 t data 3 k x) =
      .ok (nfScan exCollapseRng (split k).1 ⟨x, t.val x data, exFlowOps.logProb (exFlowOps.setStats exParams exData) x⟩
        (((sampleFlow exFlowOps (exFlowOps.setStats exParams exData) 10 (split k).2 3).zip
          (proposedLogProbs t { data with nSteps := some 3 } 10 3 ((sampleFlow exFlowOps (exFlowOps.setStats exParams exData) 10 (split k).2 3).map (·.1)))).map fun pl => (pl.1.1, pl.2, pl.1.2))) := rfl
  refine ⟨_, hl, rfl, fun o ho => ?_⟩
  exact (C92_sweep (grad := exGrad) ⟨exCollapseRng, exFlowOps, .fin (10 ^ 9)⟩ rfl _ (exArch_base (fun j => (exFlowOps.setStats exParams exData) (.inr (.inr j)))) exCollapsed t data 10 3 k x _ hl o ho).1

/-- Resources of `C92_call`: one chain that has not moved in two steps. -/
def exCollapseHeap (D : Type) : Heap XR D 2 (Gen.Params 2 Unit → XR) (Gen.AdamState XR (Gen.Params 2 Unit)) where
  res name := match name with
    | "model" => some (.model exParams)
    | "optimizer" => some (.optimizer Gen.AdamState.init)
    | "positions" => some (.buffer { name := "positions", data := ⟨[1, 2, 2], fun _ => .fin 3⟩ })
    | _ => none
  pos _ := 0

/-- The training strategy of `C92_call`. -/
def exCollapseTrain : TrainModel where
  modelName := "model"
  dataName := "positions"
  optimizerName := "optimizer"
  lossBufferName := ""
  nEpochs := 3
  batchSize := 2
  nMaxExamples := 10
  historyWindow := 100

example (D : Type) (k : Key) (xs : List (Pos XR 2)) : ∃ k' h', exCollapseTrain.run ⟨exCollapseRng, exFlowOps, .fin (10 ^ 9)⟩ k xs (exCollapseHeap D) = (.ok (k', xs), h') ∧ h'.res "model" = some (.model exParams) := by
  have hrows : trainingRows (d := 2) (⟨[1, 2, 2], fun _ => .fin 3⟩ : NDArr XR) 1 2 100 = .ok [fun _ => .fin 3, fun _ => .fin 3] := by
    simp [trainingRows, finiteRows, row3, BufNum.isFinite, List.range_succ, List.finRange_succ, chunks, takeLast]
    exact ⟨funext fun i => by fin_cases i <;> rfl, funext fun i => by fin_cases i <;> rfl⟩
  have hp : ∃ r, exCollapseTrain.plan ⟨exCollapseRng, exFlowOps, .fin (10 ^ 9)⟩ k (exCollapseHeap D) = .ok r := by
    simp only [TrainModel.plan, Heap.getModel, Heap.getBuffer, Heap.getOptimizer, Heap.get, exCollapseHeap, exCollapseTrain, bind, Except.bind, hrows, if_true]
    exact ⟨_, rfl⟩
  obtain ⟨r, hr⟩ := hp
  have hrun : exCollapseTrain.run ⟨exCollapseRng, exFlowOps, .fin (10 ^ 9)⟩ k xs (exCollapseHeap D) =
      (.ok (r.rng, xs), ((exCollapseHeap D).setRes "model" (.model r.model)).setRes "optimizer" (.optimizer r.state)) := by
    rw [TrainModel.run, hr]; rfl
  refine ⟨_, _, hrun, ?_⟩
  have := C92_call exGrad_stops exArch_base ⟨exCollapseRng, exFlowOps, .fin (10 ^ 9)⟩ rfl exCollapseTrain (by decide) (by decide) k r.rng xs xs (exCollapseHeap D) _
    (fun o ho => by
      have : o = Gen.AdamState.init := by simp only [exCollapseHeap, exCollapseTrain, Option.some.injEq, Resource.optimizer.injEq] at ho; exact ho.symm
      rw [this]; exact fun _ => Or.inl rfl) _ rfl 1 2 rfl 0 3 (fun _ _ _ _ _ => rfl) hrun
  rw [this.2.2 "model" (by decide)]; rfl

end
end FlowMC
