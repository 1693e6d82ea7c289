import Verif.Spec.FlowInit
import Verif.Props.Keys
/-
C86: the constructors of the flows draw every array of initial parameters with its own key.
-/
set_option linter.unusedSectionVars false
namespace FlowMC
open Spec
noncomputable section

/-- Keys of the weights (`true`) and biases (`false`) of the `j`-th layer of a network built with key `k`. -/
def netKey (k : Key) (j : Nat) (b : Bool) : Key := .child (carryKey k j) (if b then 2 else 1)

theorem mlp_init_eq (dr : MLPDraws) (scale : ℝ) (n : Nat) (hid : List Nat) (m : Nat) (k : Key) :
    MLP.init dr scale n hid m k = netFrom dr scale n hid m (fun j => netKey k j true) (fun j => netKey k j false) := by
  induction hid generalizing n k with
  | nil => rfl
  | cons h hid ih => simp only [MLP.init, netFrom, ih]; rfl

theorem netKey_desc (k : Key) (j : Nat) (b : Bool) : Desc k (netKey k j b) := .child _ (desc_carryKey k j)

theorem netKey_disjoint (k a : Key) (j j' : Nat) (b b' : Bool) (h : (j, b) ≠ (j', b')) : ¬ (Desc (netKey k j b) a ∧ Desc (netKey k j' b') a) := by
  have main : ∀ j j' b b', j < j' → ¬ (Desc (netKey k j b) a ∧ Desc (netKey k j' b') a) := by
    intro j j' b b' hj ⟨h1, h2⟩
    have h3 : Desc (.child (carryKey k j) 0) (netKey k j' b') := by
      rw [← carryKey_succ]; exact desc_trans (desc_carryKey_le k hj) desc_child_self
    refine children_disjoint (k := carryKey k j) (a := a) (i := 0) (j := if b then 2 else 1) (by cases b <;> simp) ⟨desc_trans h3 h2, h1⟩
  rcases Nat.lt_trichotomy j j' with hj | hj | hj
  · exact main _ _ _ _ hj
  · subst hj
    have : b ≠ b' := fun e => h (by rw [e])
    exact children_disjoint (by cases b <;> cases b' <;> simp_all)
  · exact fun ⟨h1, h2⟩ => main _ _ _ _ hj ⟨h2, h1⟩

theorem family_of_disjoint {ι : Type} {k : Key} {key : ι → Key} (h1 : ∀ i, Desc k (key i)) (h2 : ∀ i j, i ≠ j → ∀ a, ¬ (Desc (key i) a ∧ Desc (key j) a)) : FreshFamily k key :=
  ⟨h1, fun i j hij h => h2 i j hij _ ⟨h, .refl⟩⟩

/-- **C86, spline flow.** The constructor of the spline flow draws every array of initial network parameters (layer `l` of the flow, layer `j` of its network, weights or biases) with a key of
its own, derived from the constructor's key; the affine part of every layer starts as the identity. -/
theorem C86_spline (d K nLayers : ℕ) (hidden : List ℕ) (k : Key) : ∃ key : ℕ × ℕ × Bool → Key, FreshFamily k key ∧
    ∀ (dr : MLPDraws) (lo hi : ℝ) (base : Option (BaseDist d)) (mean var : Option (Pos ℝ d)) (flow : SplineFlow d K),
      flow = SplineFlow.init dr d K nLayers hidden k lo hi base mean var →
      flow.layers.length = nLayers ∧ ∀ l layer, flow.layers[l]? = some layer →
        layer.scale = 0 ∧ layer.shift = 0 ∧
        layer.mlp = netFrom dr (1 / 100) d hidden (d * (K * 3 + 1)) (fun j => key (l, j, true)) (fun j => key (l, j, false)) := by
  refine ⟨fun i => netKey (.child k i.1) i.2.1 i.2.2, family_of_disjoint (fun i => desc_trans desc_child_self (netKey_desc _ _ _)) ?_, ?_⟩
  · rintro ⟨l, j, b⟩ ⟨l', j', b'⟩ hij a ⟨h1, h2⟩
    by_cases hl : l = l'
    · subst hl
      exact netKey_disjoint _ a j j' b b' (fun e => hij (by cases e; rfl)) ⟨h1, h2⟩
    · exact children_disjoint (a := a) hl ⟨desc_trans (netKey_desc _ _ _) h1, desc_trans (netKey_desc _ _ _) h2⟩
  · intro dr lo hi base mean var flow hf
    subst hf
    refine ⟨by simp [SplineFlow.init], fun l layer hl => ?_⟩
    simp only [SplineFlow.init, List.getElem?_map, Option.map_eq_some_iff] at hl
    obtain ⟨i, hi, rfl⟩ := hl
    obtain ⟨hlt, rfl⟩ := List.getElem?_eq_some_iff.1 hi
    simp only [List.getElem_range, splineMakeLayer, mlp_init_eq, and_self]

/-- **C86, RealNVP.** The same for RealNVP, which has two networks in every layer: the scale network (`true`) and the shift network (`false`), each with one hidden layer. -/
theorem C86_realNVP (d nLayers nHidden : ℕ) (k : Key) : ∃ key : ℕ × Bool × ℕ × Bool → Key, FreshFamily k key ∧
    ∀ (dr : MLPDraws) (base : Option (BaseDist d)) (mean var : Option (Pos ℝ d)) (flow : RealNVP d),
      flow = RealNVP.init dr d nLayers nHidden k base mean var →
      flow.layers.length = nLayers ∧ ∀ l layer, flow.layers[l]? = some layer →
        layer.scaleMLP = netFrom dr (1 / 10000) d [nHidden] d (fun j => key (l, true, j, true)) (fun j => key (l, true, j, false)) ∧
        layer.shiftMLP = netFrom dr (1 / 10000) d [nHidden] d (fun j => key (l, false, j, true)) (fun j => key (l, false, j, false)) := by
  have hd : ∀ (l : ℕ) (s : Bool) (j : ℕ) (b : Bool), Desc (.child (.child k l) (if s then 1 else 2)) (netKey (.child (.child k l) (if s then 1 else 2)) j b) := fun l s j b => netKey_desc _ _ _
  refine ⟨fun i => netKey (.child (.child k i.1) (if i.2.1 then 1 else 2)) i.2.2.1 i.2.2.2, family_of_disjoint (fun i => desc_trans (desc_trans desc_child_self desc_child_self) (netKey_desc _ _ _)) ?_, ?_⟩
  · rintro ⟨l, s, j, b⟩ ⟨l', s', j', b'⟩ hij a ⟨h1, h2⟩
    have e1 := desc_trans (hd l s j b) h1
    have e2 := desc_trans (hd l' s' j' b') h2
    by_cases hl : l = l'
    · subst hl
      by_cases hs : s = s'
      · subst hs
        exact netKey_disjoint _ a j j' b b' (fun e => hij (by cases e; rfl)) ⟨h1, h2⟩
      · exact children_disjoint (k := .child k l) (a := a) (i := if s then 1 else 2) (j := if s' then 1 else 2) (by cases s <;> cases s' <;> simp_all) ⟨e1, e2⟩
    · exact children_disjoint (a := a) hl ⟨desc_trans desc_child_self e1, desc_trans desc_child_self e2⟩
  · intro dr base mean var flow hf
    subst hf
    refine ⟨by simp [RealNVP.init], fun l layer hl => ?_⟩
    simp only [RealNVP.init, List.getElem?_map, Option.map_eq_some_iff] at hl
    obtain ⟨i, hi, rfl⟩ := hl
    obtain ⟨hlt, rfl⟩ := List.getElem?_eq_some_iff.1 hi
    simp only [List.getElem_range, nvpMakeLayer, mlp_init_eq]
    exact ⟨rfl, rfl⟩

/-- **C86, reproducibility.** The flow depends on its key only through draws made with keys derived from it: two sources of randomness that agree there build the same flow. -/
theorem C86_same_draws (d K nLayers : ℕ) (hidden : List ℕ) (k : Key) (lo hi : ℝ) (base : Option (BaseDist d)) (mean var : Option (Pos ℝ d)) (nHidden : ℕ) (dr dr' : MLPDraws)
    (hl : ∀ a, Desc k a → dr.lin a = dr'.lin a) (hm : ∀ a, Desc k a → dr.mat a = dr'.mat a) :
    SplineFlow.init dr d K nLayers hidden k lo hi base mean var = SplineFlow.init dr' d K nLayers hidden k lo hi base mean var ∧
    RealNVP.init dr d nLayers nHidden k base mean var = RealNVP.init dr' d nLayers nHidden k base mean var := by
  have key : ∀ (scale : ℝ) (n : ℕ) (hid : List ℕ) (m : ℕ) (a : Key), Desc k a → MLP.init dr scale n hid m a = MLP.init dr' scale n hid m a := by
    intro scale n hid
    induction hid generalizing n with
    | nil => intro m a ha; simp only [MLP.init, hl _ (.child 1 ha)]
    | cons h hid ih => intro m a ha; simp only [MLP.init, hl _ (.child 1 ha), hm _ (.child 2 ha), ih h m _ (.child 0 ha)]
  constructor
  · simp only [SplineFlow.init, splineMakeLayer, key _ _ _ _ _ (desc_child_self (k := k))]
  · simp only [RealNVP.init, nvpMakeLayer, key _ _ _ _ _ (desc_trans (desc_child_self (k := k)) desc_child_self)]

/-- A spline flow with two layers and two hidden network layers is an instance of C86_spline: four arrays of weights and biases per flow layer plus the last layer. -/
example (dr : MLPDraws) (k : Key) (lo hi : ℝ) : (SplineFlow.init dr 3 8 2 [16, 16] k lo hi none none none).layers.length = 2 := by simp [SplineFlow.init]

/-- Two different sources of randomness that agree below the key: the hypotheses of C86_same_draws can be met by sources that differ elsewhere. -/
example : ∃ dr dr' : MLPDraws, (∀ a, Desc (.child (.root 0) 0) a → dr.lin a = dr'.lin a) ∧ (∀ a, Desc (.child (.root 0) 0) a → dr.mat a = dr'.mat a) ∧ dr.mat ≠ dr'.mat := by
  classical
  refine ⟨⟨fun _ _ _ => (fun _ _ => 0, fun _ => 0), fun _ _ _ _ _ => 0⟩, ⟨fun _ _ _ => (fun _ _ => 0, fun _ => 0), fun k _ _ _ _ => if k = .root 1 then 1 else 0⟩, fun _ _ => rfl, fun a ha => ?_, fun h => ?_⟩
  · have : a ≠ .root 1 := by rintro rfl; cases ha
    simp [this]
  · have := congrFun (congrFun (congrFun (congrFun (congrFun h (.root 1)) 1) 1) 0) 0
    simp at this

end
end FlowMC
