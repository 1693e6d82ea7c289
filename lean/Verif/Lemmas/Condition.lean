import Verif.Lemmas.Ideal
import Mathlib.Probability.ConditionalProbability
/-
Conditioning an ideal random world on what happened before a key is used.
-/
open MeasureTheory ProbabilityTheory
open scoped ENNReal
set_option linter.unusedSectionVars false
namespace FlowMC
open Spec

variable {Ω D M O : Type} {d : ℕ}
variable {past : MeasurableSpace Ω} {sig : Key → MeasurableSpace Ω} [mΩ : MeasurableSpace Ω] {P : Measure Ω} [IsProbabilityMeasure P] {env : Ω → Env ℝ D d M O} {T : Key → Prop}

/-- The world conditioned on an event `E` (as a world of its own, whose outcomes are the elements of `E`). -/
noncomputable def condOn (P : Measure Ω) (E : Set Ω) : Measure E := (P[|E]).comap Subtype.val

/-- Everything that is known without the draws of `k` and its descendants. -/
def before (past : MeasurableSpace Ω) (sig : Key → MeasurableSpace Ω) (k : Key) : MeasurableSpace Ω := info past sig (descSet k)ᶜ

open Classical in
/-- The draws of the descendants of `k`. -/
noncomputable def after (sig : Key → MeasurableSpace Ω) (k a : Key) : MeasurableSpace Ω := if Desc k a then sig a else ⊥

theorem condOn_apply {E A : Set Ω} (hE : MeasurableSet E) (hA : MeasurableSet A) : condOn P E (Subtype.val ⁻¹' A) = P[A|E] := by
  rw [condOn, MeasurableEmbedding.comap_apply (MeasurableEmbedding.subtype_coe hE), Set.image_preimage_eq_inter_range, Subtype.range_coe_subtype]
  rw [cond_apply hE, cond_apply hE]
  congr 2
  ext x; simp only [Set.mem_inter_iff, Set.mem_setOf_eq]; tauto

theorem before_le (h : IdealOn T past sig P env) (k : Key) : before past sig k ≤ mΩ := h.info_le _

theorem after_le (h : IdealOn T past sig P env) (k a : Key) : after sig k a ≤ mΩ := by
  unfold after; split
  · exact h.sig_le a
  · exact bot_le

theorem after_le_info (past : MeasurableSpace Ω) (sig : Key → MeasurableSpace Ω) (k a : Key) : after sig k a ≤ info past sig (descSet k) := by
  unfold after; split
  · exact sig_le_info (mem_descSet ‹_›)
  · exact bot_le

theorem cond_after (h : IdealOn T past sig P env) (k : Key) {E A : Set Ω} (hE : MeasurableSet[before past sig k] E) (hP : P E ≠ 0)
    (hA : MeasurableSet[info past sig (descSet k)] A) : P[A|E] = P A := by
  have hind : Indep (before past sig k) (info past sig (descSet k)) P := indep_iSup_of_disjoint h.elim_le h.indep disjoint_compl_left
  rw [cond_apply (before_le h k E hE), (Indep_iff _ _ P).1 hind E A hE hA, ← mul_assoc, ENNReal.inv_mul_cancel hP (measure_ne_top P E), one_mul]

/-- Conditioning on an event determined before `k` is used leaves the draws of `k` and its descendants ideal. -/
theorem idealOn_cond (h : IdealOn T past sig P env) (k : Key) (hT : ∀ a, Desc k a → T a) {E : Set Ω} (hE : MeasurableSet[before past sig k] E) (hP : P E ≠ 0) :
    IdealOn (Desc k) ((before past sig k).comap Subtype.val) (fun a => (after sig k a).comap Subtype.val) (condOn P E) (fun ω : E => env ω) := by
  have hE' : MeasurableSet E := before_le h k E hE
  have hlaw : ∀ {B : Type} [MeasurableSpace B] (a : Key) (_ : Desc k a) (Z : Ω → B) (_ : Measurable[sig a] Z), (condOn P E).map (fun ω : E => Z ω) = P.map Z := by
    intro B _ a ha Z hZ
    have hZm : Measurable Z := hZ.mono (h.sig_le a) le_rfl
    ext A hA
    have hZs : Measurable (fun ω : E => Z ω) := hZm.comp measurable_subtype_coe
    rw [Measure.map_apply hZs hA, Measure.map_apply hZm hA]
    have : (fun ω : E => Z ω) ⁻¹' A = Subtype.val ⁻¹' (Z ⁻¹' A) := rfl
    rw [this, condOn_apply hE' (hZm hA), cond_after h k hE hP]
    exact (sig_le_info (mem_descSet ha)) _ (hZ hA)
  have hmeas : ∀ {B : Type} [MeasurableSpace B] (a : Key) (_ : Desc k a) (Z : Ω → B) (_ : Measurable[sig a] Z),
      Measurable[(after sig k a).comap Subtype.val] (fun ω : E => Z ω) := by
    intro B _ a ha Z hZ
    have e : after sig k a = sig a := by simp [after, ha]
    rw [e]
    exact hZ.comp (comap_measurable _)
  refine ⟨?_, ?_, ?_, ?_, ?_, ?_, ?_⟩
  · exact MeasurableSpace.comap_mono (before_le h k)
  · intro a; exact MeasurableSpace.comap_mono (after_le h k a)
  · rw [iIndep_iff]
    intro s f hf
    -- pull all sets back to Ω
    have hex : ∀ o ∈ s, ∃ A : Set Ω, MeasurableSet[o.elim (before past sig k) (after sig k)] A ∧ Subtype.val ⁻¹' A = f o := by
      intro o ho
      have := hf o ho
      cases o with
      | none => exact this
      | some a => exact this
    choose! A hA hfA using hex
    have hAm : ∀ o ∈ s, MeasurableSet (A o) := by
      intro o ho
      have := hA o ho
      cases o with
      | none => exact before_le h k _ this
      | some a => exact after_le h k a _ this
    have hfac : ∀ o ∈ s, condOn P E (f o) = P[A o|E] := fun o ho => by rw [← hfA o ho, condOn_apply hE' (hAm o ho)]
    have hint : (⋂ o ∈ s, f o) = Subtype.val ⁻¹' (⋂ o ∈ s, A o) := by
      rw [Set.preimage_iInter₂]
      exact Set.iInter₂_congr fun o ho => (hfA o ho).symm
    rw [hint, condOn_apply hE' (s.measurableSet_biInter hAm), Finset.prod_congr rfl hfac]
    -- split off the past
    set B : Set Ω := if none ∈ s then A none else Set.univ with hB
    have hBm : MeasurableSet[before past sig k] B := by
      rw [hB]; split
      · exact hA none ‹_›
      · exact MeasurableSet.univ
    have hCm : MeasurableSet[info past sig (descSet k)] (⋂ a ∈ Finset.eraseNone s, A (some a)) := by
      refine @Finset.measurableSet_biInter _ _ (info past sig (descSet k)) _ _ fun a ha => ?_
      exact after_le_info past sig k a _ (hA (some a) (Finset.mem_eraseNone.1 ha))
    have hsplit : (⋂ o ∈ s, A o) = B ∩ ⋂ a ∈ Finset.eraseNone s, A (some a) := by
      ext ω
      simp only [Set.mem_iInter, Set.mem_inter_iff, Finset.mem_eraseNone, hB]
      constructor
      · intro hω
        refine ⟨?_, fun a ha => hω _ ha⟩
        split
        · exact hω none ‹_›
        · trivial
      · rintro ⟨h1, h2⟩ o ho
        cases o with
        | none => rw [if_pos ho] at h1; exact h1
        | some a => exact h2 a ho
    have hprod : ∏ o ∈ s, P[A o|E] = P[B|E] * ∏ a ∈ Finset.eraseNone s, P (A (some a)) := by
      have h1 : ∀ a ∈ Finset.eraseNone s, P[A (some a)|E] = P (A (some a)) := fun a ha =>
        cond_after h k hE hP (after_le_info past sig k a _ (hA (some a) (Finset.mem_eraseNone.1 ha)))
      rw [← Finset.prod_congr rfl h1]
      by_cases hn : none ∈ s
      · have hs : s = Finset.insertNone (Finset.eraseNone s) := by rw [Finset.insertNone_eraseNone, Finset.insert_eq_of_mem hn]
        conv_lhs => rw [hs]
        rw [Finset.prod_insertNone, hB, if_pos hn]
      · have hs : s = (Finset.eraseNone s).map Function.Embedding.some := by rw [Finset.map_some_eraseNone, Finset.erase_eq_of_notMem hn]
        conv_lhs => rw [hs]
        rw [Finset.prod_map, hB, if_neg hn, cond_apply hE', Set.inter_univ, ENNReal.inv_mul_cancel hP (measure_ne_top P E), one_mul]
        rfl
    have hind : Indep (before past sig k) (info past sig (descSet k)) P := indep_iSup_of_disjoint h.elim_le h.indep disjoint_compl_left
    have hsome : P (⋂ a ∈ Finset.eraseNone s, A (some a)) = ∏ a ∈ Finset.eraseNone s, P (A (some a)) := by
      have h1 : iIndep (fun a : Key => after sig k a) P := by
        have h2 : iIndep ((fun o : Option Key => o.elim past sig) ∘ some) P := h.indep.precomp (Option.some_injective _)
        refine iIndep_of_iIndep_of_le h2 fun a => ?_
        unfold after; split
        · exact le_rfl
        · exact bot_le
      exact (iIndep_iff _ P).1 h1 _ fun a ha => hA (some a) (Finset.mem_eraseNone.1 ha)
    rw [hsplit, hprod, cond_apply hE', cond_apply hE', ← Set.inter_assoc,
      (Indep_iff _ _ P).1 hind (E ∩ B) _ (@MeasurableSet.inter _ (before past sig k) _ _ hE hBm) hCm, hsome, mul_assoc]
  · intro a ha n; exact hmeas a ha _ (h.normal_meas a (hT a ha) n)
  · intro a ha n; rw [hlaw a ha _ (h.normal_meas a (hT a ha) n)]; exact h.normal_law a (hT a ha) n
  · intro a ha; exact hmeas a ha _ (h.uniform_meas a (hT a ha))
  · intro a ha; rw [hlaw a ha _ (h.uniform_meas a (hT a ha))]; exact h.uniform_law a (hT a ha)

theorem idealFlow_cond (h : IdealOn T past sig P env) (k : Key) (hT : ∀ a, Desc k a → T a) {E : Set Ω} (hE : MeasurableSet[before past sig k] E) (hP : P E ≠ 0) (m : M)
    (q : Measure (Pos ℝ d)) (lnf : Pos ℝ d → ℝ) (hf : IdealFlowOn T P sig env m q lnf) :
    IdealFlowOn (Desc k) (condOn P E) (fun a => (after sig k a).comap Subtype.val) (fun ω : E => env ω) m q lnf := by
  have hE' : MeasurableSet E := before_le h k E hE
  refine ⟨fun ω => hf.lawful ω, fun a ha n => ?_, fun a ha n => ?_, fun ω => hf.logProb ω, hf.density⟩
  · have e : after sig k a = sig a := by simp [after, ha]
    rw [e]
    exact (hf.rows_meas a (hT a ha) n).comp (comap_measurable _)
  · have hZ := hf.rows_meas a (hT a ha) n
    rw [← hf.rows_law a (hT a ha) n]
    have hZm := hZ.mono (h.sig_le a) le_rfl
    ext A hA
    have hZs : Measurable (fun (ω : E) (i : Fin n) => ((env ω).ops.sample m a n).getD i 0) := hZm.comp measurable_subtype_coe
    rw [Measure.map_apply hZs hA, Measure.map_apply hZm hA]
    have : (fun (ω : E) (i : Fin n) => ((env ω).ops.sample m a n).getD i 0) ⁻¹' A = Subtype.val ⁻¹' ((fun ω (i : Fin n) => ((env ω).ops.sample m a n).getD i 0) ⁻¹' A) := rfl
    rw [this, condOn_apply hE' (hZm hA), cond_after h k hE hP]
    exact (sig_le_info (mem_descSet ha)) _ (hZ hA)

theorem condOn_map {E : Set Ω} (hE : MeasurableSet E) {Y : Ω → Pos ℝ d} (hY : Measurable Y) : (condOn P E).map (fun ω : E => Y ω) = (P[|E]).map Y := by
  ext A hA
  have hYs : Measurable (fun ω : E => Y ω) := hY.comp measurable_subtype_coe
  rw [Measure.map_apply hYs hA, Measure.map_apply hY hA]
  exact condOn_apply hE (hY hA)

end FlowMC
