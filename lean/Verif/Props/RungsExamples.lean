import Verif.Props.Rungs
import Verif.Props.WitnessRuns
/-
C117: cases that meet the hypotheses.
-/
set_option linter.unusedSectionVars false
namespace FlowMC
open Spec
namespace Toy

/-- Three walkers, two ladders that differ at the third rung only: the same walkers end at the first two temperatures as far as the first three rungs decide it. -/
example := C117_sees Toy.rng ⟨⟨Toy.target, []⟩, Toy.target⟩ Toy.data (Key.root 0) 0 [1, 1, 1] [1, 1, 7] [fun _ => 5, fun _ => 6, fun _ => 7] [fun _ => 5, fun _ => 6, fun _ => 0] rfl
  (fun j hj => by have : j = 0 ∨ j = 1 := by omega
                  rcases this with rfl | rfl <;> rfl)
  (fun j hj => by have : j = 0 ∨ j = 1 := by omega
                  rcases this with rfl | rfl <;> rfl)

/-- The bound is reached: the walker of the second rung ends at the first.  And only downwards moves are bounded: the walker of the first rung ends at the third. -/
example : ((exchange Toy.rng ⟨⟨Toy.target, []⟩, Toy.target⟩ Toy.data [1, 1, 1] (Key.root 0) [fun _ => 5, fun _ => 6, fun _ => 7]).1.positions.map (· 0)) = [6, 7, 5] := by decide

example : ∃ j, j ≤ 0 + 1 ∧ ([fun _ => 5, fun _ => 6, fun _ => 7] : List (Pos Int 1))[j]? = some (fun _ => 6) :=
  C117_one_rung Toy.rng ⟨⟨Toy.target, []⟩, Toy.target⟩ Toy.data [1, 1, 1] (Key.root 0) [fun _ => 5, fun _ => 6, fun _ => 7] 0 (fun _ => 6)
    (by
      have h : ((exchange Toy.rng ⟨⟨Toy.target, []⟩, Toy.target⟩ Toy.data [1, 1, 1] (Key.root 0) [fun _ => 5, fun _ => 6, fun _ => 7]).1.positions[0]?).map (· 0) = some 6 := by decide
      rcases e : (exchange Toy.rng ⟨⟨Toy.target, []⟩, Toy.target⟩ Toy.data [1, 1, 1] (Key.root 0) [fun _ => 5, fun _ => 6, fun _ => 7]).1.positions[0]? with _ | w
      · rw [e] at h; cases h
      · rw [e] at h
        simp only [Option.map_some, Option.some.injEq] at h ⊢
        funext i
        rw [Subsingleton.elim i 0, h])

/-- The log-density `x ↦ x` on the line. -/
noncomputable def slope : Target ℝ Unit 1 := { val := fun x _ => x 0, grad := fun _ _ _ => 1 }

/-- A generator whose uniform draws are `1 / 3`. -/
noncomputable def third : Rng ℝ := { normal := fun _ _ _ => 0, uniform := fun _ => 1 / 3, permutation := fun _ n => List.range n, choice := fun _ _ m => List.replicate m 0 }

/-- Temperatures 1, 2, 4 and walkers at 0, 1, 5: the last one is the best, and ends at the second rung. -/
example : (exchange third ⟨⟨slope, []⟩, slope⟩ ⟨(), none⟩ [1, 2, 4] (.root 0) [fun _ => 0, fun _ => 1, fun _ => 5]).1.positions[1]? = some (fun _ => 5) :=
  C117_best_moves third (fun _ => ⟨by norm_num [third], by norm_num [third]⟩) ⟨⟨slope, []⟩, slope⟩ ⟨(), none⟩ [1, 2, 4] (.root 0) _ 1 2 4 rfl rfl (by norm_num) (by norm_num) (fun _ => 5) rfl
    (fun q hq w hw => by
      have : q = 0 ∨ q = 1 := by omega
      rcases this with rfl | rfl
      · simp only [List.getElem?_cons_zero, Option.some.injEq] at hw; subst hw; norm_num [slope]
      · simp only [List.getElem?_cons_succ, List.getElem?_cons_zero, Option.some.injEq] at hw; subst hw; norm_num [slope])

example : (exchBody [1, 2] (1 / 3) 0 (⟨[fun _ => 0, fun _ => 1], [0, 1]⟩ : ExchCarry ℝ 1)).2 = true :=
  C117_certain [1, 2] (1 / 3) (by norm_num) (by norm_num) 0 _ 0 1 1 2 rfl rfl rfl rfl (by norm_num) (by norm_num) (.inl (by norm_num))

open XR

/-- The resources of the tempered bundle (three temperatures) when production begins. -/
noncomputable def begun : Heap XR Unit 1 Unit Unit :=
  ((Strategy.updateState updateStateStrat : Strategy XR Unit 1 Unit Unit).run xrEnv (.root 1) [] ⟨(), none⟩ ⟨(ptBundle xrCfg xrPT).resources, fun _ => 0⟩).2

theorem begun_phase : InPhase begun true := inPhase_update xrEnv (.root 1) [] ⟨(), none⟩ _ false (inPhase_fresh xrCfg _ (.pt xrPT) _)

/-- The replica buffer of `begun`, and one with other replicas at the third temperature. -/
noncomputable def repBuf : Buffer XR := Buffer.new "tempered_positions" [2, 2, 1] 2
noncomputable def repBuf' : Buffer XR := { repBuf with data := ⟨repBuf.data.shape, fun i => if i.getD 1 0 = 0 then repBuf.data.get i else fin 42⟩ }

/-- The temperature buffer of `begun`, and one with a third temperature of 1000. -/
noncomputable def tempBuf : Buffer XR := { (Buffer.new "temperature" [3] 0 : Buffer XR) with data := arr1 BufNum.negInf ((List.range 3).map (linspace1 (fin 10) 3)) }
noncomputable def tempBuf' : Buffer XR := { tempBuf with data := ⟨tempBuf.data.shape, fun i => if i = [2] then fin 1000 else tempBuf.data.get i⟩ }

noncomputable def begun' : Heap XR Unit 1 Unit Unit := (begun.setRes "tempered_positions" (.buffer repBuf')).setRes "temperatures" (.buffer tempBuf')

theorem begun_near : SameNearCold "tempered_positions" "temperatures" begun begun' where
  rest := ⟨fun n hn => by simp [begun', Heap.setRes, dictSet, hn.1, hn.2], fun _ => rfl⟩
  replicas := ⟨repBuf, repBuf', rfl, by simp [begun', Heap.setRes, dictSet], rfl, fun a c => by simp [repBuf']⟩
  temperatures := ⟨tempBuf, tempBuf', rfl, by simp [begun', Heap.setRes, dictSet], rfl, by simp [tempBuf'], by simp [tempBuf']⟩

/-- The two states do differ. -/
example : begun ≠ begun' := by
  intro h
  have h1 : begun.res "tempered_positions" = begun'.res "tempered_positions" := by rw [h]
  have h2 : begun.res "tempered_positions" = some (.buffer repBuf) := rfl
  have h3 : begun'.res "tempered_positions" = some (.buffer repBuf') := by simp [begun', Heap.setRes, dictSet]
  rw [h2, h3] at h1
  have h4 : repBuf.data.get [0, 1, 0] = repBuf'.data.get [0, 1, 0] := by
    rw [Option.some.inj h1 |> Resource.buffer.inj]
  simp [repBuf', repBuf, Buffer.new, BufNum.negInf] at h4

/-- A production loop and a half from the two states. -/
example := C117_production xrEnv xrCfg xrPT ⟨(), none⟩ ["parallel_tempering", "local_stepper", "update_global_step", "global_stepper", "update_local_step", "parallel_tempering", "local_stepper"]
  (by decide) (.root 5) xrInit.atleast2d begun begun' begun_phase begun_near

example : ∃ st, begun.res "sampler_state" = some (.state st) ∧
    (((ptStrat xrCfg xrPT).run xrEnv (.root 5) xrInit.atleast2d ⟨(), none⟩ begun).1 = ((ptStrat xrCfg xrPT).run xrEnv (.root 5) xrInit.atleast2d ⟨(), none⟩ begun').1 ∧
    ((ptStrat xrCfg xrPT).run xrEnv (.root 5) xrInit.atleast2d ⟨(), none⟩ begun).2 = begun ∧ ((ptStrat xrCfg xrPT).run xrEnv (.root 5) xrInit.atleast2d ⟨(), none⟩ begun').2 = begun') := by
  obtain ⟨st, h1, -, h3⟩ := begun_phase
  exact ⟨st, h1, C117_call xrEnv (ptStrat xrCfg xrPT) (.root 5) _ ⟨(), none⟩ begun begun' "tempered_positions" "temperatures" [] rfl ⟨by simp [ptStrat], by simp [ptStrat]⟩ ⟨by simp [ptStrat], by simp [ptStrat]⟩
    ⟨by simp [ptStrat], by simp [ptStrat]⟩ begun_near st h1 h3⟩

end Toy
end FlowMC
