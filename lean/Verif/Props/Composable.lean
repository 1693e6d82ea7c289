import Verif.Spec.Composable
import Verif.Props.FlowDensity
import Verif.Props.StepLog
import Mathlib.MeasureTheory.Function.Floor
/-
C75: composed distributions.
-/
set_option linter.unusedSectionVars false
open MeasureTheory ProbabilityTheory
open scoped ENNReal
namespace FlowMC
open Spec

noncomputable section

variable {m d : ℕ}

theorem pyBound_nat (n a : ℕ) : pyBound n (a : ℤ) = min a n := by simp [pyBound]

theorem inRange_iff (lo hi : ℤ) (a : Fin d) : InRange d lo hi a ↔ pyBound d lo ≤ a ∧ (a : ℕ) < pyBound d hi := by
  have ha := a.2
  unfold InRange pyBound
  split <;> split <;> omega

theorem filter_interval (α : Type) (f : ℕ → α) (p q : ℕ) : ∀ n : ℕ, ((List.range n).filter fun a => decide (p ≤ a ∧ a < q)) = ((List.range n).take q).drop p
  | 0 => by simp
  | n + 1 => by
    rw [List.range_succ, List.filter_append, filter_interval α f p q n, List.take_append, List.drop_append]
    congr 1
    by_cases h : p ≤ n ∧ n < q
    · simp only [h, List.filter_cons, and_self, decide_true, if_true, List.filter_nil, List.length_range, List.length_take]
      rw [show min q n = n by omega, show p - n = 0 by omega, show q - n = (q - n - 1) + 1 by omega]
      simp
    · simp only [List.filter_cons, h, decide_false, Bool.false_eq_true, if_false, List.filter_nil, List.length_range, List.length_take]
      symm
      rw [List.drop_eq_nil_iff, List.length_take]
      simp only [List.length_singleton]
      omega

/-- `x[lo:hi]` for all bounds. -/
theorem pySlice_eq (x : Pos ℝ d) (lo hi : ℤ) : pySlice x lo hi = entries x lo hi := by
  classical
  unfold entries pySlice
  have e : ((List.finRange d).filter fun a => decide (InRange d lo hi a)) = ((List.finRange d).take (pyBound d hi)).drop (pyBound d lo) := by
    apply List.map_injective_iff.2 Fin.val_injective
    rw [List.map_drop, List.map_take, List.map_coe_finRange_eq_range, ← filter_interval ℕ id]
    rw [← List.map_coe_finRange_eq_range, List.filter_map]
    congr 1
    refine List.filter_congr fun a _ => ?_
    simp only [Function.comp, inRange_iff]
  have e2 := congrArg (List.map x) e
  rw [List.map_drop, List.map_take] at e2
  have e3 : (List.finRange d).map x = List.ofFn x := by rw [← List.ofFn_id, List.map_ofFn]; rfl
  rw [e3] at e2
  exact e2.symm

theorem Spec.Tiling.slice (t : Tiling m d) (x : Pos ℝ d) (i : Fin m) : pySlice x (t.off i) (t.off i + t.n i : ℤ) = List.ofFn (t.block x i) := by
  have hb : pyBound d (t.off i + t.n i : ℤ) = min (t.off i + t.n i) d := by exact_mod_cast pyBound_nat d (t.off i + t.n i)
  unfold pySlice
  rw [pyBound_nat, hb]
  have hle : t.n i = 0 ∨ t.off i + t.n i ≤ d := by
    by_cases h : t.n i = 0
    · exact Or.inl h
    · right
      have h1 := t.place i ⟨t.n i - 1, by omega⟩
      have h2 := (t.e ⟨i, ⟨t.n i - 1, by omega⟩⟩).2
      simp only at h1
      omega
  refine List.ext_getElem ?_ ?_
  · simp only [List.length_drop, List.length_take, List.length_ofFn]; omega
  · intro j h1 h2
    simp only [List.length_ofFn] at h2
    simp only [List.getElem_drop, List.getElem_take, List.getElem_ofFn, Tiling.block]
    congr 1
    ext
    rw [t.place]
    simp only
    omega

theorem logProbLoop_ok {x : Pos ℝ d} {v : (Σ m, BaseDist m) × String × ℤ × ℤ → ℝ} : ∀ (L : List ((Σ m, BaseDist m) × String × ℤ × ℤ)) (acc : ℝ),
    (∀ p ∈ L, logProbSlice p.1 (pySlice x p.2.2.1 p.2.2.2) = .ok (v p)) → Composable.logProbLoop x L acc = .ok (acc + (L.map v).sum)
  | [], acc, _ => by simp [Composable.logProbLoop]
  | (b, nm, lo, hi) :: rest, acc, h => by
    have h1 := h _ List.mem_cons_self
    simp only at h1
    simp only [Composable.logProbLoop, h1, bind, Except.bind]
    rw [logProbLoop_ok rest _ fun p hp => h p (List.mem_cons_of_mem _ hp)]
    simp [add_assoc]

theorem zip_ofFn {α β : Type*} {m : ℕ} (f : Fin m → α) (g : Fin m → β) : (List.ofFn f).zip (List.ofFn g) = List.ofFn fun i => (f i, g i) := by
  refine List.ext_getElem (by simp) fun j h1 h2 => by simp

/-- **C75.** The log-density of a composed distribution whose ranges tile the coordinates is the sum of the log-densities of the blocks. -/
theorem C75_log_prob (t : Tiling m d) (names : Fin m → String) (B : ∀ i, BaseDist (t.n i)) (x : Pos ℝ d) :
    (t.compose names B).logProb x = .ok (∑ i, (B i).logProb (t.block x i)) := by
  have hs : ∀ i, logProbSlice ⟨t.n i, B i⟩ (pySlice x (t.off i) (t.off i + t.n i : ℤ)) = .ok ((B i).logProb (t.block x i)) := by
    intro i
    rw [t.slice]
    unfold logProbSlice
    rw [dif_pos (by simp)]
    congr 2
    funext j
    simp
  unfold Composable.logProb Tiling.compose
  rw [zip_ofFn, logProbLoop_ok (v := fun p => match logProbSlice p.1 (pySlice x p.2.2.1 p.2.2.2) with | .ok v => v | .error _ => 0)]
  · rw [List.map_ofFn, List.sum_ofFn, zero_add]
    congr 1
    refine Finset.sum_congr rfl fun i _ => ?_
    simp only [Function.comp, hs]
  · intro p hp
    obtain ⟨i, rfl⟩ := (List.mem_ofFn' _ _).1 hp
    simp only [hs]

/-- **C75 (silent truncation).** Distributions beyond the number of ranges, and ranges beyond the number of distributions, are ignored by `log_prob` and `sample`. -/
theorem C75_surplus (c : Composable) (h : c.dists.length = c.parts.length) (moreD : List (Σ m, BaseDist m)) (moreP : List (String × ℤ × ℤ)) (x : Pos ℝ d) (rng : Rng ℝ) (k : Key) (n : ℕ) :
    (⟨c.dists ++ moreD, c.parts⟩ : Composable).logProb x = c.logProb x ∧ (⟨c.dists, c.parts ++ moreP⟩ : Composable).logProb x = c.logProb x ∧
    (⟨c.dists ++ moreD, c.parts⟩ : Composable).sample rng k n = c.sample rng k n ∧ (⟨c.dists, c.parts ++ moreP⟩ : Composable).sample rng k n = c.sample rng k n := by
  have h1 : (c.dists ++ moreD).zip c.parts = c.dists.zip c.parts := by
    have := List.zip_append (l₁ := c.dists) (l₂ := c.parts) h (r₁ := moreD) (r₂ := [])
    simpa using this
  have h2 : c.dists.zip (c.parts ++ moreP) = c.dists.zip c.parts := by
    have := List.zip_append (l₁ := c.dists) (l₂ := c.parts) h (r₁ := []) (r₂ := moreP)
    simpa using this
  simp only [Composable.logProb, Composable.sample, h1, h2, and_self]

/-- **C75, any ranges.** Whatever the ranges (overlapping, with gaps, negative or past the end), each distribution is evaluated at the entries in its range, and `log_prob` is the sum; a
range with the wrong number of entries raises. -/
theorem C75_any_ranges (c : Composable) (x : Pos ℝ d) :
    (∀ vs : List ℝ, List.Forall₂ (fun (p : (Σ m, BaseDist m) × String × ℤ × ℤ) v =>
      ∃ h : (entries x p.2.2.1 p.2.2.2).length = p.1.1, p.1.2.logProb (fun i => (entries x p.2.2.1 p.2.2.2)[i.1]'(by omega)) = v) (c.dists.zip c.parts) vs →
      c.logProb x = .ok vs.sum) ∧
    ((∃ p ∈ c.dists.zip c.parts, (entries x p.2.2.1 p.2.2.2).length ≠ p.1.1) → c.logProb x = .error .typeError) := by
  unfold Composable.logProb
  generalize c.dists.zip c.parts = L
  constructor
  · intro vs h
    suffices hs : ∀ acc, Composable.logProbLoop x L acc = .ok (acc + vs.sum) by simpa using hs 0
    induction h with
    | nil => intro acc; simp [Composable.logProbLoop]
    | cons hp _ ih =>
      rename_i p v _ _ _
      obtain ⟨b, nm, lo, hi⟩ := p
      intro acc
      obtain ⟨hl, hv⟩ := hp
      have : logProbSlice b (pySlice x lo hi) = .ok v := by
        rw [pySlice_eq]
        unfold logProbSlice
        rw [dif_pos hl, ← hv]
      simp only [Composable.logProbLoop, this, bind, Except.bind]
      rw [ih, List.sum_cons, add_assoc]
  · rintro ⟨p, hp, hne⟩
    generalize (0 : ℝ) = acc
    induction L generalizing acc with
    | nil => cases hp
    | cons q L ih =>
      obtain ⟨b, nm, lo, hi⟩ := q
      simp only [Composable.logProbLoop, bind, Except.bind]
      rw [pySlice_eq]
      unfold logProbSlice
      split
      · rename_i e
        split at e
        · cases e
        · rw [← e]
      · rename_i e
        split at e
        · rename_i hl
          rcases List.mem_cons.1 hp with rfl | hp
          · exact absurd hl hne
          · exact ih hp _
        · cases e

/-! ### Sampling -/

set_option backward.isDefEq.respectTransparency false in
theorem lintegral_pi_prod_dep {n : ℕ} {X : Fin n → Type} [∀ i, MeasurableSpace (X i)] {μ : ∀ i, Measure (X i)} [∀ i, SigmaFinite (μ i)] (f : ∀ i, X i → ℝ≥0∞) (hf : ∀ i, Measurable (f i)) :
    ∫⁻ x, ∏ i, f i (x i) ∂(Measure.pi μ) = ∏ i, ∫⁻ x, f i x ∂(μ i) := by
  induction n with
  | zero => simp
  | succ n ih =>
    calc
      _ = ∫⁻ x : X 0 × (∀ i : Fin n, X i.succ), f 0 x.1 * ∏ i : Fin n, f (Fin.succ i) (x.2 i) ∂((μ 0).prod (Measure.pi (fun i => μ i.succ))) := by
        rw [← ((measurePreserving_piFinSuccAbove μ 0).symm).lintegral_comp_emb (MeasurableEquiv.measurableEmbedding _)]
        simp_rw [MeasurableEquiv.piFinSuccAbove_symm_apply, Fin.insertNthEquiv, Fin.prod_univ_succ, Fin.insertNth_zero, Equiv.coe_fn_mk, Fin.cons_succ,
          Fin.zero_succAbove, cast_eq, Fin.cons_zero]
      _ = (∫⁻ x, f 0 x ∂μ 0) * ∏ i : Fin n, ∫⁻ x, f (Fin.succ i) x ∂(μ i.succ) := by
        rw [← ih (fun i => f i.succ) (fun i => hf _)]
        exact lintegral_prod_mul (hf 0).aemeasurable (Finset.measurable_prod _ fun i _ => (hf _).comp (measurable_pi_apply i)).aemeasurable
      _ = _ := by rw [Fin.prod_univ_succ]

theorem pi_withDensity_dep {n : ℕ} {X : Fin n → Type} [∀ i, MeasureSpace (X i)] [∀ i, SigmaFinite (volume : Measure (X i))] (f : ∀ i, X i → ℝ≥0∞) (hf : ∀ i, Measurable (f i))
    (hp : ∀ i, SigmaFinite ((volume : Measure (X i)).withDensity (f i))) :
    Measure.pi (fun i => (volume : Measure (X i)).withDensity (f i)) = (volume : Measure (∀ i, X i)).withDensity (fun x => ∏ i, f i (x i)) := by
  symm
  refine (Measure.pi_eq fun s hs => ?_).symm
  rw [withDensity_apply _ (MeasurableSet.univ_pi hs), ← lintegral_indicator (MeasurableSet.univ_pi hs)]
  have : (fun x : ∀ i, X i => (Set.univ.pi s).indicator (fun x => ∏ i, f i (x i)) x) = fun x => ∏ i, (s i).indicator (f i) (x i) := by
    funext x
    by_cases hx : x ∈ Set.univ.pi s
    · rw [Set.indicator_of_mem hx]
      exact Finset.prod_congr rfl fun i _ => (Set.indicator_of_mem (hx i (Set.mem_univ i)) _).symm
    · rw [Set.indicator_of_notMem hx]
      simp only [Set.mem_pi, Set.mem_univ, true_imp_iff, not_forall] at hx
      obtain ⟨i, hi⟩ := hx
      exact (Finset.prod_eq_zero (Finset.mem_univ i) (Set.indicator_of_notMem hi _)).symm
  rw [this, volume_pi, lintegral_pi_prod_dep _ fun i => (hf i).indicator (hs i)]
  refine Finset.prod_congr rfl fun i _ => ?_
  rw [lintegral_indicator (hs i), withDensity_apply _ (hs i)]

theorem Spec.Tiling.join_measurable (t : Tiling m d) : Measurable t.join :=
  measurable_pi_lambda _ fun c => (measurable_pi_apply _).comp (measurable_pi_apply (t.e.symm c).1)

theorem Spec.Tiling.block_join (t : Tiling m d) (y : ∀ i, Fin (t.n i) → ℝ) (i : Fin m) : t.block (t.join y) i = y i := by
  funext j
  show (fun p : (Σ i, Fin (t.n i)) => y p.1 p.2) (t.e.symm (t.e ⟨i, j⟩)) = _
  rw [Equiv.symm_apply_apply]

theorem Spec.Tiling.join_block (t : Tiling m d) (x : Fin d → ℝ) : t.join (t.block x) = x := by
  funext c; simp [Tiling.block, Tiling.join]

/-- Putting the blocks together preserves volume. -/
theorem Spec.Tiling.join_preserving (t : Tiling m d) : MeasurePreserving t.join (volume : Measure (∀ i, Fin (t.n i) → ℝ)) volume := by
  refine ⟨t.join_measurable, ?_⟩
  rw [volume_pi (ι := Fin d)]
  refine (Measure.pi_eq fun s hs => ?_).symm
  rw [Measure.map_apply t.join_measurable (MeasurableSet.univ_pi hs)]
  have : t.join ⁻¹' Set.univ.pi s = Set.univ.pi fun i => Set.univ.pi fun j => s (t.e ⟨i, j⟩) := by
    ext y
    simp only [Set.mem_preimage, Set.mem_pi, Set.mem_univ, true_imp_iff, Tiling.join]
    constructor
    · intro h i j
      have := h (t.e ⟨i, j⟩)
      have e1 := congrFun (t.block_join y i) j
      simp only [Tiling.block, Tiling.join] at e1
      rwa [e1] at this
    · intro h c
      have := h (t.e.symm c).1 (t.e.symm c).2
      simpa using this
  rw [this, volume_pi, Measure.pi_pi]
  simp only [volume_pi, Measure.pi_pi]
  rw [← Equiv.prod_comp t.e, Fintype.prod_sigma]

/-- The joined vector of independent blocks has the composed density. -/
theorem Spec.Tiling.join_law (t : Tiling m d) (f : ∀ i, (Fin (t.n i) → ℝ) → ℝ) (hf : ∀ i, Measurable (f i)) :
    (Measure.pi fun i => targetMeasure (f i)).map t.join = targetMeasure fun x => ∑ i, f i (t.block x i) := by
  have hm : ∀ i, Measurable fun x => ENNReal.ofReal (Real.exp (f i x)) := fun i => ENNReal.measurable_ofReal.comp (Real.measurable_exp.comp (hf i))
  unfold targetMeasure
  rw [pi_withDensity_dep (fun i x => ENNReal.ofReal (Real.exp (f i x))) hm fun i => by infer_instance]
  have hb : ∀ i, Measurable fun x : Fin d → ℝ => t.block x i := fun i => measurable_pi_lambda _ fun j => measurable_pi_apply _
  have hg : Measurable fun x : Fin d → ℝ => ENNReal.ofReal (Real.exp (∑ i, f i (t.block x i))) :=
    ENNReal.measurable_ofReal.comp (Real.measurable_exp.comp (Finset.measurable_sum _ fun i _ => (hf i).comp (hb i)))
  ext s hs
  rw [Measure.map_apply t.join_measurable hs, withDensity_apply _ (t.join_measurable hs), withDensity_apply _ hs, ← t.join_preserving.setLIntegral_comp_preimage hs hg]
  refine lintegral_congr fun y => ?_
  simp only [t.block_join]
  rw [← ENNReal.ofReal_prod_of_nonneg (fun i _ => (Real.exp_pos _).le), ← Real.exp_sum]

/-- Rows of independent blocks are independent rows of blocks. -/
theorem pi_transpose {m : ℕ} {X : Fin m → Type} [∀ i, MeasurableSpace (X i)] (q : ∀ i, Measure (X i)) [∀ i, IsProbabilityMeasure (q i)] (N : ℕ) :
    (Measure.pi fun i => Measure.pi fun _ : Fin N => q i).map (fun y (a : Fin N) i => y i a) = Measure.pi fun _ : Fin N => Measure.pi q := by
  have h1 := Measure.infinitePi_map_piCurry_symm (ι := Fin m) (κ := fun _ => Fin N) (X := fun i _ => X i) (fun i _ => q i)
  have h2 := Measure.infinitePi_map_piCurry (ι := Fin N) (κ := fun _ => Fin m) (X := fun _ i => X i) (fun _ i => q i)
  simp only [Measure.infinitePi_eq_pi] at h1 h2
  let e : (Σ _ : Fin m, Fin N) ≃ (Σ _ : Fin N, Fin m) := ⟨fun p => ⟨p.2, p.1⟩, fun p => ⟨p.2, p.1⟩, fun _ => rfl, fun _ => rfl⟩
  have h3 := measurePreserving_piCongrLeft (α := fun p : (Σ _ : Fin N, Fin m) => X p.2) (fun p => q p.2) e
  have h4 : Measure.map (fun (z : ∀ p : (Σ _ : Fin m, Fin N), X p.1) (p : Σ _ : Fin N, Fin m) => z ⟨p.2, p.1⟩) (Measure.pi fun p : (Σ _ : Fin m, Fin N) => q p.1) = Measure.pi fun p : (Σ _ : Fin N, Fin m) => q p.2 :=
    h3.map_eq
  rw [← h2, ← h4, ← h1, Measure.map_map (by fun_prop) (by fun_prop), Measure.map_map (by fun_prop) (by fun_prop)]
  rfl

variable {Ω D M O : Type}

theorem keyAfter_child (k : Key) (i : ℕ) : keyAfter (.child k 0) i = keyAfter k (i + 1) := by
  induction i with
  | zero => rfl
  | succ i ih => simp only [keyAfter] at ih ⊢; rw [ih]

theorem keyAfter_depth_ne (k : Key) (i j : ℕ) (h : Key.child (keyAfter k i) 1 = Key.child (keyAfter k j) 1) : i = j := by
  have h' : keyAfter k i = keyAfter k j := by injection h
  clear h
  have dep : ∀ i, sizeOf (keyAfter k i) = sizeOf k + i * (1 + sizeOf (0 : ℕ)) := by
    intro i
    induction i with
    | zero => simp [keyAfter]
    | succ i ih => simp only [keyAfter, Key.child.sizeOf_spec, ih]; ring
  have := congrArg sizeOf h'
  rw [dep, dep] at this
  have hp : 0 < 1 + sizeOf (0 : ℕ) := by omega
  exact Nat.eq_of_mul_eq_mul_right hp (by omega)

/-- **C75 (samples).** The dictionary returned by `sample`: one entry per block, in order, drawn by that block's distribution with its own key. -/
theorem C75_sample (t : Tiling m d) (names : Fin m → String) (B : ∀ i, BaseDist (t.n i)) (rng : Rng ℝ) (k : Key) (N : ℕ) :
    (t.compose names B).sample rng k N = List.ofFn fun i => (names i, ⟨t.n i, (B i).sample rng (.child (keyAfter k i) 1) N⟩) := by
  unfold Composable.sample Tiling.compose
  rw [zip_ofFn]
  generalize t.off = off
  have : ∀ (m : ℕ) (n off : Fin m → ℕ) (names : Fin m → String) (B : ∀ i, BaseDist (n i)) (k : Key),
      Composable.sampleLoop rng N (List.ofFn fun i => ((⟨n i, B i⟩ : Σ m, BaseDist m), names i, (off i : ℤ), (off i + n i : ℤ))) k =
        List.ofFn fun i => (names i, (⟨n i, (B i).sample rng (.child (keyAfter k i) 1) N⟩ : Σ m, List (Pos ℝ m))) := by
    intro m
    induction m with
    | zero => intro n off names B k; rfl
    | succ m ih =>
      intro n off names B k
      rw [List.ofFn_succ, List.ofFn_succ]
      simp only [Composable.sampleLoop, split]
      rw [ih (fun i => n i.succ) (fun i => off i.succ) (fun i => names i.succ) (fun i => B i.succ)]
      simp only [keyAfter_child, Fin.val_succ]
      rfl
  exact this m t.n off names B k

theorem sampleRow_compose (t : Tiling m d) (names : Fin m → String) (hn : Function.Injective names) (B : ∀ i, BaseDist (t.n i)) (rng : Rng ℝ) (k : Key) (N : ℕ) (i : Fin m) (a : ℕ) :
    sampleRow ((t.compose names B).sample rng k N) (names i) (t.n i) a = ((B i).sample rng (.child (keyAfter k i) 1) N).getD a 0 := by
  have : ((t.compose names B).sample rng k N).find? (fun p => p.1 == names i) = some (names i, ⟨t.n i, (B i).sample rng (.child (keyAfter k i) 1) N⟩) := by
    rw [C75_sample, List.find?_eq_some_iff_getElem]
    refine ⟨by simp, i, by simp, by simp, fun j hj => ?_⟩
    simp only [List.getElem_ofFn, Bool.not_eq_eq_eq_not, Bool.not_true, beq_eq_false_iff_ne]
    intro h
    have := hn h
    have := congrArg Fin.val this
    simp at this; omega
  unfold sampleRow
  rw [this]
  simp

variable {past : MeasurableSpace Ω} {sig : Key → MeasurableSpace Ω} [mΩ : MeasurableSpace Ω] {P : Measure Ω} [IsProbabilityMeasure P]

/-- **C75 (density).** When the ranges tile the coordinates and every block's distribution samples what its `log_prob` says, the rows put together from the entries of `sample` are
independent with density `exp (log_prob)`. -/
theorem C75_density (rng : Ω → Rng ℝ) (hle : ∀ k, sig k ≤ mΩ) (hind : iIndep sig P)
    (t : Tiling m d) (names : Fin m → String) (hn : Function.Injective names) (B : ∀ i, BaseDist (t.n i))
    (hm : ∀ i, Measurable (B i).logProb) (hp : ∀ i, IsProbabilityMeasure (targetMeasure (B i).logProb))
    (hB : ∀ i, IidRows P sig (fun k n ω => (B i).sample (rng ω) k n) (targetMeasure (B i).logProb)) (lp : Pos ℝ d → ℝ) (hlp : ∀ x, (t.compose names B).logProb x = .ok (lp x)) (k : Key) (N : ℕ) :
    IsProbabilityMeasure (targetMeasure lp) ∧
    P.map (fun ω (a : Fin N) => t.join fun i => sampleRow ((t.compose names B).sample (rng ω) k N) (names i) (t.n i) a) = Measure.pi (fun _ => targetMeasure lp) := by
  have elp : lp = fun x => ∑ i, (B i).logProb (t.block x i) := by
    funext x
    have := hlp x
    rw [C75_log_prob] at this
    injection this with this
    exact this.symm
  have hlaw := t.join_law (fun i => (B i).logProb) hm
  have hpr : IsProbabilityMeasure (targetMeasure lp) := by
    rw [elp, ← hlaw]
    exact Measure.isProbabilityMeasure_map t.join_measurable.aemeasurable
  refine ⟨hpr, ?_⟩
  let X : ∀ i : Fin m, Ω → (Fin N → Fin (t.n i) → ℝ) := fun i ω a => ((B i).sample (rng ω) (.child (keyAfter k i) 1) N).getD a 0
  have hX : ∀ i : Fin m, Measurable[sig (.child (keyAfter k i) 1)] (X i) := fun i => (hB i).meas _ N
  have hX' : ∀ i, Measurable (X i) := fun i => (hX i).mono (hle _) le_rfl
  have hindep : iIndepFun X P := by
    have h1 : iIndep (fun i : Fin m => sig (.child (keyAfter k i) 1)) P := by
      refine hind.precomp (g := fun i : Fin m => Key.child (keyAfter k i) 1) fun i j h => Fin.ext (keyAfter_depth_ne k i j h)
    rw [iIndepFun_iff_iIndep]
    exact iIndep_of_iIndep_of_le h1 fun i => (hX i).comap_le
  have hjoint : P.map (fun ω i => X i ω) = Measure.pi fun i => Measure.pi fun _ : Fin N => targetMeasure (B i).logProb := by
    rw [(iIndepFun_iff_map_fun_eq_pi_map fun i => (hX' i).aemeasurable).1 hindep]
    congr 1
    funext i
    exact (hB i).law _ N
  have hfun : (fun ω (a : Fin N) => t.join fun i => sampleRow ((t.compose names B).sample (rng ω) k N) (names i) (t.n i) a) =
      (fun y a => t.join (y a)) ∘ (fun (y : ∀ i, Fin N → Fin (t.n i) → ℝ) a i => y i a) ∘ fun ω i => X i ω := by
    funext ω a
    simp only [Function.comp, sampleRow_compose t names hn]
    rfl
  have m1 : Measurable fun ω i => X i ω := measurable_pi_lambda _ hX'
  have m2 : Measurable fun (y : ∀ i, Fin N → Fin (t.n i) → ℝ) a i => y i a := by fun_prop
  have m3 : Measurable fun (y : Fin N → ∀ i, Fin (t.n i) → ℝ) a => t.join (y a) := measurable_pi_lambda _ fun a => t.join_measurable.comp (measurable_pi_apply a)
  rw [hfun, ← Measure.map_map m3 (m2.comp m1), ← Measure.map_map m2 m1, hjoint, pi_transpose]
  have := (measurePreserving_pi (fun _ : Fin N => Measure.pi fun i => targetMeasure (B i).logProb) (fun _ => targetMeasure lp) fun _ =>
    ⟨t.join_measurable, by rw [hlaw, elp]⟩).map_eq
  exact this

/-! ### Ranges that do not cover every coordinate -/

/-- **C75 (gaps).** A coordinate outside all ranges has no influence on `log_prob`. -/
theorem C75_gap (c : Composable) (a : Fin d) (ha : ∀ p ∈ c.dists.zip c.parts, ¬ InRange d p.2.2.1 p.2.2.2 a) (x : Pos ℝ d) (v : ℝ) :
    c.logProb (Function.update x a v) = c.logProb x := by
  have hs : ∀ p ∈ c.dists.zip c.parts, pySlice (Function.update x a v) p.2.2.1 p.2.2.2 = pySlice x p.2.2.1 p.2.2.2 := by
    intro p hp
    have h := ha p hp
    rw [inRange_iff] at h
    unfold pySlice
    refine List.ext_getElem (by simp) fun j h1 h2 => ?_
    simp only [List.length_drop, List.length_take, List.length_ofFn] at h1
    simp only [List.getElem_drop, List.getElem_take, List.getElem_ofFn]
    refine Function.update_of_ne (fun e => ?_) _ _
    have := congrArg Fin.val e
    simp only at this
    omega
  unfold Composable.logProb
  generalize c.dists.zip c.parts = L at hs
  generalize (0 : ℝ) = acc
  induction L generalizing acc with
  | nil => rfl
  | cons p L ih =>
    obtain ⟨b, nm, lo, hi⟩ := p
    simp only [Composable.logProbLoop]
    have := hs _ List.mem_cons_self
    simp only at this
    rw [this]
    congr 1
    funext w
    exact ih (fun p hp => hs p (List.mem_cons_of_mem _ hp)) _

/-- **C75 (gaps).** With a coordinate outside all ranges the density `exp (log_prob)` has infinite mass. -/
theorem C75_gap_mass (c : Composable) (a : Fin d) (ha : ∀ p ∈ c.dists.zip c.parts, ¬ InRange d p.2.2.1 p.2.2.2 a) (lp : Pos ℝ d → ℝ)
    (hlp : ∀ x : Pos ℝ d, c.logProb x = .ok (lp x)) (hm : Measurable lp) : targetMeasure lp Set.univ = ⊤ := by
  have hup : ∀ x v, lp (Function.update x a v) = lp x := by
    intro x v
    have := C75_gap c a ha x v
    rw [hlp, hlp] at this
    injection this
  have hf : Measurable fun x : Pos ℝ d => ENNReal.ofReal (Real.exp (lp x)) := ENNReal.measurable_ofReal.comp (Real.measurable_exp.comp hm)
  have hS : ∀ k : ℤ, MeasurableSet {x : Pos ℝ d | ⌊x a⌋ = k} := fun k => ((measurable_pi_apply a).floor : Measurable fun x : Pos ℝ d => ⌊x a⌋) (measurableSet_singleton k)
  have hshift : ∀ k : ℤ, targetMeasure lp {x : Pos ℝ d | ⌊x a⌋ = k} = targetMeasure lp {x : Pos ℝ d | ⌊x a⌋ = 0} := by
    intro k
    have mp : MeasurePreserving (fun x : Pos ℝ d => x + Pi.single a (k : ℝ)) volume volume := measurePreserving_add_right _ _
    have hpre : (fun x : Pos ℝ d => x + Pi.single a (k : ℝ)) ⁻¹' {x | ⌊x a⌋ = k} = {x | ⌊x a⌋ = 0} := by
      ext x
      simp
    unfold targetMeasure
    rw [withDensity_apply _ (hS k), withDensity_apply _ (hS 0), ← mp.setLIntegral_comp_preimage (hS k) hf, hpre]
    refine lintegral_congr fun x => ?_
    have : x + Pi.single a (k : ℝ) = Function.update x a (x a + k) := by
      funext c
      by_cases hc : c = a
      · subst hc; simp
      · simp [hc]
    rw [this, hup]
  have hU : (Set.univ : Set (Pos ℝ d)) = ⋃ k : ℤ, {x | ⌊x a⌋ = k} := by
    ext x; simp
  have hsum : targetMeasure lp Set.univ = ∑' _ : ℤ, targetMeasure lp {x : Pos ℝ d | ⌊x a⌋ = 0} := by
    rw [hU, measure_iUnion _ hS]
    · exact tsum_congr hshift
    · intro i j hij
      refine Set.disjoint_left.2 fun x hx hy => hij ?_
      rw [← hx, ← hy]
  by_cases h0 : targetMeasure lp {x : Pos ℝ d | ⌊x a⌋ = 0} = 0
  · exfalso
    rw [h0, tsum_zero] at hsum
    unfold targetMeasure at hsum
    rw [withDensity_apply _ MeasurableSet.univ, setLIntegral_univ, lintegral_eq_zero_iff hf] at hsum
    have hne : (volume : Measure (Pos ℝ d)) ≠ 0 := NeZero.ne _
    have : ∀ᵐ x ∂(volume : Measure (Pos ℝ d)), False := by
      filter_upwards [hsum] with x hx
      simp only [Pi.zero_apply, ENNReal.ofReal_eq_zero] at hx
      exact absurd hx (not_le.2 (Real.exp_pos _))
    rw [Filter.eventually_false_iff_eq_bot, ae_eq_bot] at this
    exact hne this
  · rw [hsum, ENNReal.tsum_const_eq_top_of_ne_zero h0]

/-! ### Gaussian blocks -/

/-- Consecutive blocks of the given lengths. -/
def consecutive (n : Fin m → ℕ) : Tiling m (∑ i, n i) where
  n := n
  off i := ∑ j : Fin i.1, n (Fin.castLE i.2.le j)
  e := finSigmaFinEquiv
  place i j := by rw [finSigmaFinEquiv_apply]

/-- **C75 (Gaussian blocks).** In an ideal random world consecutive Gaussian blocks with any means and Cholesky factors meet the hypotheses of `C75_density`: the rows put together from
`sample` have density `exp (log_prob)`. -/
theorem C75_gaussians {env : Ω → Env ℝ D d M O} (h : IdealDraws past sig P env) (n : Fin m → ℕ) (names : Fin m → String) (hn : Function.Injective names)
    (mean : ∀ i, Pos ℝ (n i)) (L : ∀ i, Matrix (Fin (n i)) (Fin (n i)) ℝ) (hL : ∀ i, CholeskyFactor (L i)) (k : Key) (N : ℕ) :
    ∃ lp : Pos ℝ (∑ i, n i) → ℝ, (∀ x, ((consecutive n).compose names fun i => gaussian (mean i) (L i)).logProb x = .ok (lp x)) ∧ IsProbabilityMeasure (targetMeasure lp) ∧
      P.map (fun ω (a : Fin N) => (consecutive n).join fun i =>
        sampleRow (((consecutive n).compose names fun i => gaussian (mean i) (L i)).sample (env ω).rng k N) (names i) (n i) a) = Measure.pi (fun _ => targetMeasure lp) := by
  have hc : ∀ i, ConsistentBase P sig (fun ω => (⟨(env ω).rng, ⟨fun _ _ n => List.replicate n 0, fun _ _ => 0, fun m o _ => (0, m, o), fun m _ => m⟩, (env ω).big⟩ : Env ℝ D (n i) M O)) (gaussian (mean i) (L i)) := by
    intro i
    exact C46_gaussian (past := past) (d := n i) (env := fun ω => (⟨(env ω).rng, ⟨fun _ _ n => List.replicate n 0, fun _ _ => 0, fun m o _ => (0, m, o), fun m _ => m⟩, (env ω).big⟩ : Env ℝ D (n i) M O)) ⟨h.past_le, h.sig_le, h.indep, h.normal_meas, h.normal_law, h.uniform_meas, h.uniform_law⟩ (mean i) (hL i)
  refine ⟨_, fun x => C75_log_prob _ names _ x, ?_⟩
  refine C75_density (fun ω => (env ω).rng) h.sig_le ?_ (consecutive n) names hn (fun i => gaussian (mean i) (L i)) (fun i => (hc i).logProb_meas) (fun i => (hc i).normalised) (fun i => (hc i).rows) _
    (fun x => C75_log_prob _ names _ x) k N
  exact h.indep.precomp (g := fun k => some k) (Option.some_injective _)

/-- Non-vacuity of the gap theorems: one standard normal on coordinate 0 of a vector of length 2. -/
example : ∃ (c : Composable) (lp : Pos ℝ 2 → ℝ), (∀ p ∈ c.dists.zip c.parts, ¬ InRange 2 p.2.2.1 p.2.2.2 1) ∧ (∀ x : Pos ℝ 2, c.logProb x = .ok (lp x)) ∧ Measurable lp := by
  refine ⟨⟨[⟨1, stdGaussian 1⟩], [("a", 0, 1)]⟩, fun x => (stdGaussian 1).logProb fun _ => x 0, ?_, ?_, ?_⟩
  · simp [InRange]
  · intro x
    have : pySlice x 0 1 = [x 0] := by simp [pySlice, pyBound]
    simp [Composable.logProb, Composable.logProbLoop, logProbSlice, this, bind, Except.bind]
  · exact (measurable_isoNorm (d := 1) _ _).comp (measurable_pi_lambda _ fun _ => measurable_pi_apply 0)

/-- A range counted from the end: `x[-2:3]` of a vector of length 3 is its last two entries. -/
example (x : Pos ℝ 3) : entries x (-2) 3 = [x 1, x 2] := by
  rw [← pySlice_eq]
  simp [pySlice, pyBound, List.ofFn_succ]

/-- Non-vacuity of `C75_gaussians`: blocks of lengths 1 and 2 in the ideal world. -/
example : ∃ (n : Fin 2 → ℕ) (names : Fin 2 → String), Function.Injective names ∧ ∑ i, n i = 3 ∧ ∀ i, CholeskyFactor (1 : Matrix (Fin (n i)) (Fin (n i)) ℝ) :=
  ⟨![1, 2], ![ "a", "b"], by intro i j; fin_cases i <;> fin_cases j <;> simp, by simp [Fin.sum_univ_succ], fun i => ⟨fun a b h => Matrix.one_apply_ne h.ne, fun a => by simp⟩⟩

end
end FlowMC
