import Verif.Spec.Ideal
import Verif.Spec.Converge
import Verif.Props.Keys
import Verif.Lemmas.Metropolis
import Mathlib.Probability.Independence.InfinitePi
import Mathlib.MeasureTheory.Measure.Prod
/-
Consequences of independence of the draws.
-/
open MeasureTheory ProbabilityTheory
open scoped ENNReal
set_option linter.unusedSectionVars false
namespace FlowMC
open Spec

variable {Ω D M O : Type} {d : ℕ} {A B C : Type} [MeasurableSpace A] [MeasurableSpace B] [MeasurableSpace C]

/-- What is known from the draws in `S` (`none` stands for the past). -/
def info (past : MeasurableSpace Ω) (sig : Key → MeasurableSpace Ω) (S : Set (Option Key)) : MeasurableSpace Ω :=
  ⨆ o ∈ S, (fun o : Option Key => o.elim past sig) o

variable {past : MeasurableSpace Ω} {sig : Key → MeasurableSpace Ω}

theorem info_mono {S T : Set (Option Key)} (h : S ⊆ T) : info past sig S ≤ info past sig T := biSup_mono h

theorem sig_le_info {S : Set (Option Key)} {k : Key} (h : some k ∈ S) : sig k ≤ info past sig S := by
  unfold info
  exact le_iSup₂_of_le (f := fun (o : Option Key) (_ : o ∈ S) => o.elim past sig) (some k) h le_rfl

theorem past_le_info {S : Set (Option Key)} (h : none ∈ S) : past ≤ info past sig S := by
  unfold info
  exact le_iSup₂_of_le (f := fun (o : Option Key) (_ : o ∈ S) => o.elim past sig) none h le_rfl

variable [mΩ : MeasurableSpace Ω] {P : Measure Ω} [IsProbabilityMeasure P] {env : Ω → Env ℝ D d M O} {T : Key → Prop}

theorem Spec.IdealOn.elim_le (h : IdealOn T past sig P env) (o : Option Key) : o.elim past sig ≤ mΩ := by
  cases o with
  | none => exact h.past_le
  | some k => exact h.sig_le k

theorem Spec.IdealOn.info_le (h : IdealOn T past sig P env) (S : Set (Option Key)) : info past sig S ≤ mΩ :=
  iSup₂_le fun o _ => h.elim_le o

theorem Spec.IdealOn.indepFun (h : IdealOn T past sig P env) {S S' : Set (Option Key)} (hST : Disjoint S S') {X : Ω → A} {Z : Ω → B}
    (hX : Measurable[info past sig S] X) (hZ : Measurable[info past sig S'] Z) : IndepFun X Z P := by
  have := indep_iSup_of_disjoint h.elim_le h.indep hST
  rw [IndepFun_iff_Indep]
  exact indep_of_indep_of_le_left (indep_of_indep_of_le_right this hZ.comap_le) hX.comap_le

theorem Spec.IdealOn.joint (h : IdealOn T past sig P env) {S S' : Set (Option Key)} (hST : Disjoint S S') {X : Ω → A} {Z : Ω → B}
    (hX : Measurable[info past sig S] X) (hZ : Measurable[info past sig S'] Z) : P.map (fun ω => (X ω, Z ω)) = (P.map X).prod (P.map Z) :=
  (indepFun_iff_map_prod_eq_prod_map_map (hX.mono (h.info_le S) le_rfl).aemeasurable (hZ.mono (h.info_le S') le_rfl).aemeasurable).1 (h.indepFun hST hX hZ)

/-- One step with fresh draws. -/
theorem Spec.IdealOn.step_law (h : IdealOn T past sig P env) {S S' : Set (Option Key)} (hST : Disjoint S S') {X : Ω → A} {Z : Ω → B}
    (hX : Measurable[info past sig S] X) (hZ : Measurable[info past sig S'] Z) {π : Measure A} {ν : Measure B} (hπ : P.map X = π) (hν : P.map Z = ν)
    {step : B → A → A} (hm : Measurable (fun p : A × B => step p.2 p.1)) : P.map (fun ω => step (Z ω) (X ω)) = stepLaw ν step π := by
  have hj := h.joint hST hX hZ
  have : (fun ω => step (Z ω) (X ω)) = (fun p : A × B => step p.2 p.1) ∘ fun ω => (X ω, Z ω) := rfl
  rw [this, ← Measure.map_map hm ((hX.mono (h.info_le S) le_rfl).prodMk (hZ.mono (h.info_le S') le_rfl)), hj, hπ, hν]
  rfl

/-- One step with fresh draws keeps the distribution. -/
theorem Spec.IdealOn.step (h : IdealOn T past sig P env) {S S' : Set (Option Key)} (hST : Disjoint S S') {X : Ω → A} {Z : Ω → B}
    (hX : Measurable[info past sig S] X) (hZ : Measurable[info past sig S'] Z) {π : Measure A} {ν : Measure B} (hπ : P.map X = π) (hν : P.map Z = ν)
    {step : B → A → A} (hm : Measurable (fun p : A × B => step p.2 p.1)) (hinv : Invariant π ν step) : P.map (fun ω => step (Z ω) (X ω)) = π := by
  exact (h.step_law hST hX hZ hπ hν hm).trans hinv

/-- The keys descending from `k`. -/
def descSet (k : Key) : Set (Option Key) := {o | ∃ a, o = some a ∧ Desc k a}

theorem descSet_child {k : Key} {i : ℕ} : descSet (.child k i) ⊆ descSet k := by
  rintro _ ⟨a, rfl, h⟩; exact ⟨a, rfl, desc_trans desc_child_self h⟩

theorem descSet_mono {k a : Key} (h : Desc k a) : descSet a ⊆ descSet k := by
  rintro _ ⟨b, rfl, hb⟩; exact ⟨b, rfl, desc_trans h hb⟩

theorem descSet_disjoint {k : Key} {i j : ℕ} (h : i ≠ j) : Disjoint (descSet (.child k i)) (descSet (.child k j)) := by
  rw [Set.disjoint_left]
  rintro _ ⟨a, rfl, h1⟩ ⟨b, hb, h2⟩
  obtain rfl : a = b := by simpa using hb
  exact children_disjoint h ⟨h1, h2⟩

theorem mem_descSet {k a : Key} (h : Desc k a) : some a ∈ descSet k := ⟨a, rfl, h⟩

end FlowMC
