import Verif.Props.Coupling
import Verif.Spec.Networks
/-
C38: the explicit formula of every layer of a RealNVP the constructor makes.
-/
set_option linter.unusedSectionVars false
namespace FlowMC
open Spec
noncomputable section
open Classical

variable {d : ℕ}

theorem relu_eq (x : ℝ) : relu x = if 0 ≤ x then x else 0 := by
  unfold relu
  split_ifs with h
  · exact max_eq_left h
  · exact max_eq_right (by linarith)

theorem twoLayer_call {n h m : ℕ} (W₁ : Fin h → Fin n → ℝ) (b₁ : Fin h → ℝ) (W₂ : Fin m → Fin h → ℝ) (b₂ : Fin m → ℝ) :
    (MLP.hidden W₁ b₁ (.last W₂ b₂)).call relu = rectifiedNet W₁ b₁ W₂ b₂ := by
  funext x i
  simp only [MLP.call, linear, rectifiedNet, relu_eq, sumFin_eq]

/-- **C38 (what a layer computes).** Layer `i` of a RealNVP with networks of one hidden layer of rectified units (as the constructor makes them, and with any weights training gives them):
even layers keep the first half of the coordinates, odd layers the second half; the others are shifted and scaled by networks of the kept ones; the log-determinant is the sum of the
log-scales. -/
theorem C38_layer (i nHidden : ℕ) (W₁ V₁ : Fin nHidden → Fin d → ℝ) (b₁ c₁ : Fin nHidden → ℝ) (W₂ V₂ : Fin d → Fin nHidden → ℝ) (b₂ c₂ : Fin d → ℝ) (l : NVPLayer d)
    (hm : l.mask = nvpMask d i) (hs : l.scaleMLP = .hidden W₁ b₁ (.last W₂ b₂)) (ht : l.shiftMLP = .hidden V₁ c₁ (.last V₂ c₂)) (x : Pos ℝ d) :
    l.coupling.forward x =
      (affineCoupled (fun j : Fin d => i % 2 = 0 ↔ j.1 < d / 2) (rectifiedNet W₁ b₁ W₂ b₂) (rectifiedNet V₁ c₁ V₂ c₂) x,
       affineCoupledLogDet (fun j : Fin d => i % 2 = 0 ↔ j.1 < d / 2) (rectifiedNet W₁ b₁ W₂ b₂) x) := by
  have hmask : ∀ j : Fin d, l.mask j = if (i % 2 = 0 ↔ j.1 < d / 2) then 1 else 0 := by
    intro j
    rw [hm]
    split_ifs with h
    · exact ((C38_masks i).2 j).2 h
    · exact ((C38_masks i).1 j).resolve_right fun e => h (((C38_masks i).2 j).1 e)
  have hc : (fun j => x j * l.mask j) = fun j : Fin d => if (i % 2 = 0 ↔ j.1 < d / 2) then x j else 0 := by
    funext j; rw [hmask]; split_ifs <;> simp
  simp only [CouplingLayer.forward, NVPLayer.coupling, mlpAffine, hs, ht, twoLayer_call, hc, sumFin_eq, mul_one]
  refine Prod.ext (funext fun j => ?_) ?_
  · simp only [affineCoupled, hmask]
    split_ifs <;> simp
  · simp only [affineCoupledLogDet, hmask]
    refine Finset.sum_congr rfl fun j _ => ?_
    split_ifs <;> simp

/-- **C38 (the constructed layers).** Every layer the constructor makes is of the form `C38_layer` describes. -/
theorem C38_layers (dr : MLPDraws) (nLayers nHidden : ℕ) (k : Key) (base : Option (BaseDist d)) (mean var : Option (Pos ℝ d)) (i : ℕ) (l : NVPLayer d)
    (hl : (RealNVP.init dr d nLayers nHidden k base mean var).layers[i]? = some l) :
    ∃ (W₁ V₁ : Fin nHidden → Fin d → ℝ) (b₁ c₁ : Fin nHidden → ℝ) (W₂ V₂ : Fin d → Fin nHidden → ℝ) (b₂ c₂ : Fin d → ℝ), ∀ x : Pos ℝ d,
      l.coupling.forward x =
        (affineCoupled (fun j : Fin d => i % 2 = 0 ↔ j.1 < d / 2) (rectifiedNet W₁ b₁ W₂ b₂) (rectifiedNet V₁ c₁ V₂ c₂) x,
         affineCoupledLogDet (fun j : Fin d => i % 2 = 0 ↔ j.1 < d / 2) (rectifiedNet W₁ b₁ W₂ b₂) x) := by
  simp only [RealNVP.init, List.getElem?_map, Option.map_eq_some_iff] at hl
  obtain ⟨j, hj, rfl⟩ := hl
  obtain ⟨_, rfl⟩ := List.getElem?_eq_some_iff.1 hj
  exact ⟨_, _, _, _, _, _, _, _, fun x => C38_layer _ nHidden _ _ _ _ _ _ _ _ _ (by simp [nvpMakeLayer]) rfl rfl x⟩

/-- The layers have concrete values: in dimension 2, with one hidden unit in each network, all weights 1 and all biases 0, layer 0 keeps the first coordinate, and sends `(2, 3)` to `(2, 5 exp(tanh 2))`. -/
example (l : NVPLayer 2) (hm : l.mask = nvpMask 2 0) (hs : l.scaleMLP = .hidden (fun (_ : Fin 1) _ => 1) (fun _ => 0) (.last (fun _ _ => 1) fun _ => 0))
    (ht : l.shiftMLP = .hidden (fun (_ : Fin 1) _ => 1) (fun _ => 0) (.last (fun _ _ => 1) fun _ => 0)) :
    l.coupling.forward ![2, 3] = (![2, 5 * Real.exp (Real.tanh 2)], Real.tanh 2) := by
  rw [C38_layer 0 1 _ _ _ _ _ _ _ _ l hm hs ht]
  refine Prod.ext (funext fun j => ?_) ?_
  · fin_cases j <;> norm_num [affineCoupled, rectifiedNet, Fin.sum_univ_two]
  · norm_num [affineCoupledLogDet, rectifiedNet, Fin.sum_univ_two]

/-- … and the constructor makes such layers. -/
example (dr : MLPDraws) (k : Key) : ∃ l, (RealNVP.init dr 4 6 8 k none none none).layers[3]? = some l := by simp [RealNVP.init]

end
end FlowMC
