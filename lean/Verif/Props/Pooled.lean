import Verif.Props.Thinning
import Verif.Props.Decay
/-
C125: pooling independent chains.
-/
open MeasureTheory ProbabilityTheory
open scoped ENNReal
set_option linter.unusedSectionVars false
namespace FlowMC
open Spec
variable {Ω D M O : Type} {d : ℕ}
variable {past : MeasurableSpace Ω} {sig : Key → MeasurableSpace Ω} [mΩ : MeasurableSpace Ω] {P : Measure Ω} [IsProbabilityMeasure P] {env : Ω → Env ℝ D d M O} [BufNum ℝ]

section
variable {k : Key} (h : IdealOn (Desc k) past sig P env) {r0 : String → Option (Resource ℝ D d M O)} {data : Data D} {s : TakeSteps} {w w1 : Ω → World ℝ D d M O}
    (hkey : ∀ ω, (w ω).key = k) (hres : ∀ ω, KeepsSamplers r0 (w ω).heap)
    (hr : ∀ ω, s.run (env ω) (w ω).key (w ω).xs data (w ω).heap = (.ok ((w1 ω).key, (w1 ω).xs), (w1 ω).heap))
    {n cap cur : ℕ} (hn : 0 < s.nSteps) (hw : ∀ ω, (w ω).xs.length = n) {Pn L A : String} {bP bL bA : Ω → Buffer ℝ} (hpt : ∀ ω, PointsAt (w ω).heap s Pn L A)
    (hrec : ∀ ω, Recorders (w ω).heap n cap Pn L A (bP ω) (bL ω) (bA ω)) (hcur : ∀ ω, (w ω).heap.pos s.ident = cur) (hfit : cur + ceilDiv' s.nSteps s.thinning ≤ cap)
include hkey hres hr hn hw hpt hrec hcur hfit

/-- The rows computed for chain `i` are those recorded. -/
theorem call_rows {kr lr : Resource ℝ D d M O} (hkr : r0 s.kernelName = some kr) (hkr' : IsSamplerResource kr) (hlr : r0 s.logpdfName = some lr) (hlr' : IsSamplerResource lr)
    (hlen' : ∀ ω f a x r, s.sampler (env ω) kr lr data = .ok f → f a x = .ok r → r.length = s.nSteps) (i : ℕ) (X : Ω → Pos ℝ d) (hX : ∀ ω, (w ω).xs[i]? = some (X ω)) (ω : Ω) :
    0 < s.thinning ∧ ∃ r, (∃ f, s.sampler (env ω) kr lr data = .ok f ∧ f (.child (.child k 1) i) (X ω) = .ok r) ∧
      ∃ b, (w1 ω).heap.res Pn = some (.buffer b) ∧ ∀ j < ceilDiv' s.nSteps s.thinning, ∀ v, (r[j * s.thinning]?).map (·.pos) = some v → ∀ a : Fin d, b.data.get [i, cur + j, a] = v a := by
  obtain ⟨ht, kr', lr', f, rows, h1, h2, h3, h4⟩ := takeSteps_rows (env ω) s _ _ _ _ data _ _ (hr ω)
  refine ⟨ht, ?_⟩
  rw [hres ω _ _ hkr hkr', Option.some.injEq] at h1
  rw [hres ω _ _ hlr hlr', Option.some.injEq] at h2
  subst h1; subst h2
  have hlens : ∀ r ∈ rows, r.length = s.nSteps := by
    intro r hr
    obtain ⟨⟨a, hl⟩, rfl⟩ := List.mem_iff_get.1 hr
    exact hlen' ω f _ _ _ h3 ((List.forall₂_iff_get.1 h4).2 a (h4.length_eq ▸ hl) hl)
  obtain ⟨ys, h', e, he, -, -⟩ := C19_success (env ω) s (w ω).key (w ω).xs data (w ω).heap cap Pn L A (bP ω) (bL ω) (bA ω) (hpt ω) (by rw [hw]; exact hrec ω)
    (by rw [hcur]; exact hfit) kr lr (hres ω _ _ hkr hkr') (hres ω _ _ hlr hlr') f h3 rows h4 hlens ht hn
  rw [hr ω, Prod.mk.injEq] at e
  obtain ⟨b, hb, hcell⟩ := he.pos
  rw [← e.2] at hb
  have hz : ((splitN (.child (w ω).key 1) (w ω).xs.length).zip (w ω).xs)[i]? = some (.child (.child k 1) i, X ω) := by
    rw [zip_splitN_getElem?, show (w ω).xs[i]? = some (X ω) from hX ω, hkey]; rfl
  have hi := (List.getElem?_eq_some_iff.1 hz).1
  have hi' : i < rows.length := h4.length_eq ▸ hi
  have e1 := (List.forall₂_iff_get.1 h4).2 i hi hi'
  have e0 : ((splitN (.child (w ω).key 1) (w ω).xs.length).zip (w ω).xs).get ⟨i, hi⟩ = (.child (.child k 1) i, X ω) := (List.getElem?_eq_some_iff.1 hz).2
  rw [e0] at e1
  refine ⟨rows[i], ⟨f, h3, e1⟩, b, hb, fun j hj v hv a => ?_⟩
  have := hcell.inside i j v (List.getElem?_eq_some_iff.1 (hX ω)).1 hj (by
    beta_reduce
    rw [cell_everyNth _ ht, cellOf, List.getElem?_eq_getElem hi', Option.bind_some]; exact hv) a
  rwa [hcur] at this

include h

/-- The rows recorded for two chains with independent starts are independent. -/
theorem two_chains {μ : Measure (Pos ℝ d)} [IsProbabilityMeasure μ] {ν : Measure (Pos ℝ d × ℝ)} [IsProbabilityMeasure ν]
    {step : Pos ℝ d × ℝ → Pos ℝ d → Pos ℝ d} (hsm : Measurable (fun p : Pos ℝ d × (Pos ℝ d × ℝ) => step p.2 p.1)) (hs : StepperPaths (Desc k) past sig P env r0 data s ν step)
    {i i' : ℕ} (hii : i ≠ i') (X X' : Ω → Pos ℝ d) (hX : ∀ ω, (w ω).xs[i]? = some (X ω)) (hX' : ∀ ω, (w ω).xs[i']? = some (X' ω)) (hXm : Measurable[past] X) (hXm' : Measurable[past] X') (hI : IndepFun X X' P) :
    ∃ Z Z' : ℕ → Ω → Pos ℝ d, (∀ a ≤ s.nSteps, ∀ a' ≤ s.nSteps, IndepFun (Z a) (Z' a') P) ∧
      ∀ ω, ∃ b, (w1 ω).heap.res Pn = some (.buffer b) ∧ ∀ j < ceilDiv' s.nSteps s.thinning, (∀ a : Fin d, b.data.get [i, cur + j, a] = Z (j * s.thinning + 1) ω a) ∧ ∀ a : Fin d, b.data.get [i', cur + j, a] = Z' (j * s.thinning + 1) ω a := by
  obtain ⟨kr, lr, hkr, hkr', hlr, hlr', hlen', hs⟩ := hs
  have c1 := call_rows hkey hres hr hn hw hpt hrec hcur hfit hkr hkr' hlr hlr' hlen' i X hX
  have c2 := call_rows hkey hres hr hn hw hpt hrec hcur hfit hkr hkr' hlr hlr' hlen' i' X' hX'
  choose ht r hf b hb hcell using c1
  choose _ r' hf' b' hb' hcell' using c2
  have hbb : ∀ ω, b' ω = b ω := fun ω => by have := (hb' ω).symm.trans (hb ω); simpa using this
  have hnone : ∀ a : Key, Disjoint ({none} : Set (Option Key)) (descSet a) := fun a => by rw [Set.disjoint_left]; rintro o ho ⟨a, rfl, _⟩; simp at ho
  have mX : Measurable[info past sig {none}] X := hXm.mono (past_le_info (by simp)) le_rfl
  have mX' : Measurable[info past sig {none}] X' := hXm'.mono (past_le_info (by simp)) le_rfl
  have mX'' : Measurable[info past sig ({none} ∪ descSet (.child (.child k 1) i))] X' := hXm'.mono (past_le_info (by simp)) le_rfl
  obtain ⟨Z, hZm, -, hZ, hrows⟩ := hs (.child (.child k 1) i) (fun b hb => desc_trans (.child i (.child 1 .refl)) hb) {none} (hnone _) X mX r hf
  obtain ⟨Z', hZm', -, hZ', hrows'⟩ := hs (.child (.child k 1) i') (fun b hb => desc_trans (.child i' (.child 1 .refl)) hb) ({none} ∪ descSet (.child (.child k 1) i))
    (Set.disjoint_union_left.2 ⟨hnone _, descSet_disjoint hii⟩) X' mX'' r' hf'
  refine ⟨Z, Z', fun a ha a' ha' => ?_, fun ω => ⟨b ω, hb ω, fun j hj => ⟨hcell ω j hj _ (hrows _ (lt_of_lt_ceil (ht ω) hn hj) ω), ?_⟩⟩⟩
  · have gm : ∀ (B : Set (Pos ℝ d)), MeasurableSet B → ∀ c j : ℕ, Measurable (if j = c then B.indicator (1 : Pos ℝ d → ℝ≥0∞) else 1) := by
      intro B hB c j
      split
      · exact measurable_one.indicator hB
      · exact measurable_one
    have gp : ∀ (B : Set (Pos ℝ d)) (c : ℕ), c ≤ s.nSteps → ∀ (Y : ℕ → Ω → Pos ℝ d) ω, ∏ j ∈ Finset.range (s.nSteps + 1), (if j = c then B.indicator (1 : Pos ℝ d → ℝ≥0∞) else 1) (Y j ω) = B.indicator 1 (Y c ω) := by
      intro B c hc Y ω
      rw [Finset.prod_eq_single c]
      · simp
      · intro j _ hj
        simp [hj]
      · intro hh
        exact absurd (Finset.mem_range.2 (by omega)) hh
    have mz : Measurable (Z a) := (hZm a ha).mono (h.info_le _) le_rfl
    have mz' : Measurable (Z' a') := (hZm' a' ha').mono (h.info_le _) le_rfl
    rw [indepFun_iff_measure_inter_preimage_eq_mul]
    intro B B' hB hB'
    set pw := pathWeight ν step s.nSteps fun j => if j = a then B.indicator (1 : Pos ℝ d → ℝ≥0∞) else 1 with hpw
    set pw' := pathWeight ν step s.nSteps fun j => if j = a' then B'.indicator (1 : Pos ℝ d → ℝ≥0∞) else 1 with hpw'
    have mpw : Measurable pw := pathWeight_measurable hsm _ _ (gm B hB a)
    have mpw' : Measurable pw' := pathWeight_measurable hsm _ _ (gm B' hB' a')
    have e1 := hZ (fun _ => 1) measurable_const _ (gm B hB a)
    have e2 := hZ' (fun _ => 1) measurable_const _ (gm B' hB' a')
    have e3 := hZ' (fun ω => B.indicator 1 (Z a ω)) ((measurable_one.indicator hB).comp (hZm a ha)) _ (gm B' hB' a')
    have e4 := hZ (fun ω => pw' (X' ω)) (mpw'.comp mX') _ (gm B hB a)
    simp only [gp B a ha Z, gp B' a' ha' Z', one_mul] at e1 e2 e3 e4
    have i1 : ∀ (C : Set (Pos ℝ d)), MeasurableSet C → ∀ Y : Ω → Pos ℝ d, Measurable Y → ∫⁻ ω, C.indicator (1 : Pos ℝ d → ℝ≥0∞) (Y ω) ∂P = P (Y ⁻¹' C) := by
      intro C hC Y hY
      rw [← lintegral_indicator_one (hY hC)]
      rfl
    have i2 : ∫⁻ ω, B.indicator (1 : Pos ℝ d → ℝ≥0∞) (Z a ω) * B'.indicator 1 (Z' a' ω) ∂P = P (Z a ⁻¹' B ∩ Z' a' ⁻¹' B') := by
      rw [← lintegral_indicator_one ((mz hB).inter (mz' hB'))]
      refine lintegral_congr fun ω => ?_
      by_cases h1 : Z a ω ∈ B <;> by_cases h2 : Z' a' ω ∈ B' <;> simp [h1, h2]
    have x1 : Measurable X := hXm.mono h.past_le le_rfl
    have x2 : Measurable X' := hXm'.mono h.past_le le_rfl
    have e5 : ∫⁻ ω, pw' (X' ω) * pw (X ω) ∂P = (∫⁻ ω, pw' (X' ω) ∂P) * ∫⁻ ω, pw (X ω) ∂P :=
      lintegral_mul_eq_lintegral_mul_lintegral_of_indepFun (mpw'.comp x2) (mpw.comp x1) (hI.symm.comp mpw' mpw)
    rw [← i2, e3, ← i1 B hB _ mz, ← i1 B' hB' _ mz', e1, e2]
    refine Eq.trans (lintegral_congr fun ω => mul_comm _ _) (e4.trans (e5.trans (mul_comm _ _)))
  · intro c
    rw [← hbb]
    exact hcell' ω j hj _ (hrows' _ (lt_of_lt_ceil (ht ω) hn hj) ω) c
end

section
variable (k : Key) (h : IdealOn (Desc k) past sig P env) (r0 : String → Option (Resource ℝ D d M O)) (data : Data D) (μ : Measure (Pos ℝ d)) [IsProbabilityMeasure μ]
    (w w1 : Ω → World ℝ D d M O) (hkey : ∀ ω, (w ω).key = k) (hres : ∀ ω, KeepsSamplers r0 (w ω).heap) (n : ℕ) (hw : ∀ ω, (w ω).xs.length = n) (X : ℕ → Ω → Pos ℝ d)
    (hX : ∀ i < n, ∀ ω, (w ω).xs[i]? = some (X i ω)) (hXm : ∀ i < n, Measurable[past] (X i)) (hXl : ∀ i < n, P.map (X i) = μ) (hXi : ∀ i < n, ∀ i' < n, i ≠ i' → IndepFun (X i) (X i') P)
    (s : TakeSteps) (hstep : ExactStepper (Desc k) P sig env r0 data μ s) (hn : 0 < s.nSteps)
    (hcall : ∀ ω, s.run (env ω) (w ω).key (w ω).xs data (w ω).heap = (.ok ((w1 ω).key, (w1 ω).xs), (w1 ω).heap)) (cap cur : ℕ)
    (Pn L A : String) (bP bL bA : Ω → Buffer ℝ) (hpt : ∀ ω, PointsAt (w ω).heap s Pn L A) (hrec : ∀ ω, Recorders (w ω).heap n cap Pn L A (bP ω) (bL ω) (bA ω))
    (hcur : ∀ ω, (w ω).heap.pos s.ident = cur) (hfit : cur + ceilDiv' s.nSteps s.thinning ≤ cap)
include h hkey hres hw hX hXm hXl hXi hstep hn hcall hpt hrec hcur hfit

/-- **C125.** The positions of the chains before a call of an exact stepper (random walk, MALA, HMC or flow proposals, any number of steps and thinning) are pairwise independent draws from the target.  Then every row recorded for
every chain is a draw from the target, and any row of one chain is independent of any row of another chain. -/
theorem C125_independent (hpos : 0 < n) : 0 < s.thinning ∧ ∃ b : Ω → Buffer ℝ, (∀ ω, (w1 ω).heap.res Pn = some (.buffer (b ω))) ∧
    (∀ i < n, ∀ r < ceilDiv' s.nSteps s.thinning, Measurable (fun ω (a : Fin d) => (b ω).data.get [i, cur + r, a]) ∧ P.map (fun ω (a : Fin d) => (b ω).data.get [i, cur + r, a]) = μ) ∧
    ∀ i < n, ∀ i' < n, i ≠ i' → ∀ r < ceilDiv' s.nSteps s.thinning, ∀ r' < ceilDiv' s.nSteps s.thinning,
      IndepFun (fun ω (a : Fin d) => (b ω).data.get [i, cur + r, a]) (fun ω (a : Fin d) => (b ω).data.get [i', cur + r', a]) P := by
  obtain ⟨ν, hν, step, hm, hinv, hrev, hrows⟩ := exactStepper_paths h hstep
  have hrows := hrows s.nSteps s.thinning
  have one : ∀ i < n, 0 < s.thinning ∧ ∃ Z : ℕ → Ω → Pos ℝ d, IsPath P ν step μ s.nSteps Z ∧
      ∀ ω, ∃ b, (w1 ω).heap.res Pn = some (.buffer b) ∧ ∀ j < ceilDiv' s.nSteps s.thinning, ∀ a : Fin d, b.data.get [i, cur + j, a] = Z (j * s.thinning + 1) ω a := by
    intro i hi
    obtain ⟨k', S', hc⟩ := exact_chain k h r0 data μ (fun _ => none) [] (by simp) w w hkey hres i (X i) (hX i hi) (hXm i hi) (hXl i hi) fun ω => .done _
    exact stepper_path_rows h hc s hm hrows w1 hcall n cap cur hn hw Pn L A bP bL bA hpt hrec hcur hfit
  obtain ⟨ht, Z0, -, hb0⟩ := one 0 hpos
  choose b hb _ using hb0
  refine ⟨ht, b, hb, fun i hi r hr => ?_, fun i hi i' hi' hii r hr r' hr' => ?_⟩
  · obtain ⟨-, Z, hZ, hcell⟩ := one i hi
    have e : (fun ω (a : Fin d) => (b ω).data.get [i, cur + r, a]) = Z (r * s.thinning + 1) := by
      funext ω a
      obtain ⟨b', hb', hcell⟩ := hcell ω
      obtain rfl : b' = b ω := by have := hb'.symm.trans (hb ω); simpa using this
      exact hcell r hr a
    have hj : r * s.thinning + 1 ≤ s.nSteps := lt_of_lt_ceil ht hn hr
    rw [e]
    refine ⟨hZ.meas _ hj, Measure.ext fun B hB => ?_⟩
    have e1 := hZ.square hm hinv _ hj (measurable_one.indicator hB : Measurable (B.indicator (1 : Pos ℝ d → ℝ≥0∞))) (measurable_const (a := (1 : ℝ≥0∞)))
    simp only [mul_one] at e1
    rw [Measure.map_apply (hZ.meas _ hj) hB, ← lintegral_indicator_one (hZ.meas _ hj hB), ← lintegral_indicator_one hB]
    exact e1
  · obtain ⟨Z, Z', hI, hcell⟩ := two_chains h hkey hres hcall hn hw hpt hrec hcur hfit (μ := μ) hm hrows hii (X i) (X i') (hX i hi) (hX i' hi') (hXm i hi) (hXm i' hi') (hXi i hi i' hi' hii)
    have e : (fun ω (a : Fin d) => (b ω).data.get [i, cur + r, a]) = Z (r * s.thinning + 1) ∧ (fun ω (a : Fin d) => (b ω).data.get [i', cur + r', a]) = Z' (r' * s.thinning + 1) := by
      constructor
      · funext ω a
        obtain ⟨b', hb', hcell⟩ := hcell ω
        obtain rfl : b' = b ω := by have := hb'.symm.trans (hb ω); simpa using this
        exact (hcell r hr).1 a
      · funext ω a
        obtain ⟨b', hb', hcell⟩ := hcell ω
        obtain rfl : b' = b ω := by have := hb'.symm.trans (hb ω); simpa using this
        exact (hcell r' hr').2 a
    rw [e.1, e.2]
    exact hI _ (lt_of_lt_ceil ht hn hr) _ (lt_of_lt_ceil ht hn hr')

/-- **C125 (pooling).** Hence, for every function `g` with finite second moment under the target, the mean square error of the average of `g` over all `C` recorded rows of all `n` chains is exactly `1/n²` times the sum of the mean
square errors of the averages over the single chains: pooling `n` chains divides the error by `n`. -/
theorem C125_pooled (hpos : 0 < n) (g : Pos ℝ d → ℝ) (hg : Measurable g) (hg2 : Integrable (fun x => g x ^ 2) μ) : ∃ b : Ω → Buffer ℝ, (∀ ω, (w1 ω).heap.res Pn = some (.buffer (b ω))) ∧
    Integrable (fun ω => ((∑ i ∈ Finset.range n, ∑ r ∈ Finset.range (ceilDiv' s.nSteps s.thinning), g (fun a => (b ω).data.get [i, cur + r, a])) / (n * ceilDiv' s.nSteps s.thinning) - ∫ x, g x ∂μ) ^ 2) P ∧
    (∀ i < n, Integrable (fun ω => ((∑ r ∈ Finset.range (ceilDiv' s.nSteps s.thinning), g (fun a => (b ω).data.get [i, cur + r, a])) / ceilDiv' s.nSteps s.thinning - ∫ x, g x ∂μ) ^ 2) P) ∧
    ∫ ω, ((∑ i ∈ Finset.range n, ∑ r ∈ Finset.range (ceilDiv' s.nSteps s.thinning), g (fun a => (b ω).data.get [i, cur + r, a])) / (n * ceilDiv' s.nSteps s.thinning) - ∫ x, g x ∂μ) ^ 2 ∂P =
      (∑ i ∈ Finset.range n, ∫ ω, ((∑ r ∈ Finset.range (ceilDiv' s.nSteps s.thinning), g (fun a => (b ω).data.get [i, cur + r, a])) / ceilDiv' s.nSteps s.thinning - ∫ x, g x ∂μ) ^ 2 ∂P) / (n : ℝ) ^ 2 := by
  obtain ⟨ht, b, hb, hlaw, hind⟩ := C125_independent k h r0 data μ w w1 hkey hres n hw X hX hXm hXl hXi s hstep hn hcall cap cur Pn L A bP bL bA hpt hrec hcur hfit hpos
  refine ⟨b, hb, ?_⟩
  set C := ceilDiv' s.nSteps s.thinning with hCdef
  set c := ∫ x, g x ∂μ with hc
  set F : ℕ → ℕ → Ω → ℝ := fun i r ω => g fun a => (b ω).data.get [i, cur + r, a] with hF
  have hC : 0 < C := by
    rw [hCdef, ceilDiv']
    exact Nat.div_pos (by omega) ht
  have hC' : (0 : ℝ) < C := by exact_mod_cast hC
  have hn' : (0 : ℝ) < n := by exact_mod_cast hpos
  have L2 : MemLp (fun x => g x - c) 2 μ := ((memLp_two_iff_integrable_sq hg.aestronglyMeasurable).2 hg2).sub (memLp_const c)
  have hg1 : Integrable g μ := ((memLp_two_iff_integrable_sq hg.aestronglyMeasurable).2 hg2).integrable (by norm_num)
  have mF : ∀ i < n, ∀ r < C, Measurable (F i r) := fun i hi r hr => hg.comp (hlaw i hi r hr).1
  have LF : ∀ i < n, ∀ r < C, MemLp (fun ω => F i r ω - c) 2 P := by
    intro i hi r hr
    have hl := (hlaw i hi r hr).2
    rw [← hl] at L2
    exact L2.comp_of_map (hlaw i hi r hr).1.aemeasurable
  have int2 : ∀ i < n, ∀ i' < n, ∀ r < C, ∀ r' < C, Integrable (fun ω => (F i r ω - c) * (F i' r' ω - c)) P := fun i hi i' hi' r hr r' hr' => (LF i hi r hr).integrable_mul (LF i' hi' r' hr')
  have zero : ∀ i < n, ∀ r < C, ∫ ω, (F i r ω - c) ∂P = 0 := by
    intro i hi r hr
    obtain ⟨m1, m2⟩ := hlaw i hi r hr
    have e := integral_map (μ := P) m1.aemeasurable (f := fun x => g x - c) (hg.sub_const c).aestronglyMeasurable
    rw [m2] at e
    refine e.symm.trans ?_
    rw [integral_sub hg1 (integrable_const c), integral_const, probReal_univ, one_smul, hc, sub_self]
  have cross : ∀ i < n, ∀ i' < n, i ≠ i' → ∀ r < C, ∀ r' < C, ∫ ω, (F i r ω - c) * (F i' r' ω - c) ∂P = 0 := by
    intro i hi i' hi' hii r hr r' hr'
    have hI : IndepFun (fun ω => F i r ω - c) (fun ω => F i' r' ω - c) P := (hind i hi i' hi' hii r hr r' hr').comp (hg.sub_const c) (hg.sub_const c)
    rw [hI.integral_fun_mul_eq_mul_integral (LF i hi r hr).aestronglyMeasurable (LF i' hi' r' hr').aestronglyMeasurable, zero i hi r hr, zero_mul]
  set Y : ℕ → Ω → ℝ := fun i ω => (∑ r ∈ Finset.range C, F i r ω) / C - c with hY
  have eY : ∀ i ω, Y i ω = (∑ r ∈ Finset.range C, (F i r ω - c)) / C := by
    intro i ω
    simp only [hY]
    rw [Finset.sum_sub_distrib, Finset.sum_const, Finset.card_range, nsmul_eq_mul]
    field_simp
  have eYY : ∀ i i' ω, Y i ω * Y i' ω = (∑ r ∈ Finset.range C, ∑ r' ∈ Finset.range C, (F i r ω - c) * (F i' r' ω - c)) / (C : ℝ) ^ 2 := by
    intro i i' ω
    rw [eY, eY, ← Finset.sum_mul_sum]
    ring
  have intY : ∀ i < n, ∀ i' < n, Integrable (fun ω => Y i ω * Y i' ω) P := by
    intro i hi i' hi'
    simp only [eYY]
    exact (integrable_finset_sum _ fun r hr => integrable_finset_sum _ fun r' hr' => int2 i hi i' hi' r (Finset.mem_range.1 hr) r' (Finset.mem_range.1 hr')).div_const _
  have crossY : ∀ i < n, ∀ i' < n, i ≠ i' → ∫ ω, Y i ω * Y i' ω ∂P = 0 := by
    intro i hi i' hi' hii
    simp only [eYY]
    rw [integral_div, integral_finset_sum _ fun r hr => integrable_finset_sum _ fun r' hr' => int2 i hi i' hi' r (Finset.mem_range.1 hr) r' (Finset.mem_range.1 hr'), Finset.sum_eq_zero, zero_div]
    intro r hr
    rw [integral_finset_sum _ fun r' hr' => int2 i hi i' hi' r (Finset.mem_range.1 hr) r' (Finset.mem_range.1 hr')]
    exact Finset.sum_eq_zero fun r' hr' => cross i hi i' hi' hii r (Finset.mem_range.1 hr) r' (Finset.mem_range.1 hr')
  have expand : ∀ ω, ((∑ i ∈ Finset.range n, ∑ r ∈ Finset.range C, F i r ω) / (n * C) - c) ^ 2 = (∑ i ∈ Finset.range n, ∑ i' ∈ Finset.range n, Y i ω * Y i' ω) / (n : ℝ) ^ 2 := by
    intro ω
    have : ∑ i ∈ Finset.range n, Y i ω = (∑ i ∈ Finset.range n, ∑ r ∈ Finset.range C, F i r ω) / C - n * c := by
      simp only [hY]
      rw [Finset.sum_sub_distrib, Finset.sum_const, Finset.card_range, nsmul_eq_mul, Finset.sum_div]
    rw [← Finset.sum_mul_sum, this]
    field_simp
  show Integrable (fun ω => ((∑ i ∈ Finset.range n, ∑ r ∈ Finset.range C, F i r ω) / (n * C) - c) ^ 2) P ∧ (∀ i < n, Integrable (fun ω => Y i ω ^ 2) P) ∧
    ∫ ω, ((∑ i ∈ Finset.range n, ∑ r ∈ Finset.range C, F i r ω) / (n * C) - c) ^ 2 ∂P = (∑ i ∈ Finset.range n, ∫ ω, Y i ω ^ 2 ∂P) / (n : ℝ) ^ 2
  simp only [expand]
  refine ⟨(integrable_finset_sum _ fun i hi => integrable_finset_sum _ fun i' hi' => intY i (Finset.mem_range.1 hi) i' (Finset.mem_range.1 hi')).div_const _, fun i hi => by simpa only [sq] using intY i hi i hi, ?_⟩
  rw [integral_div, integral_finset_sum _ fun i hi => integrable_finset_sum _ fun i' hi' => intY i (Finset.mem_range.1 hi) i' (Finset.mem_range.1 hi')]
  congr 1
  refine Finset.sum_congr rfl fun i hi => ?_
  rw [integral_finset_sum _ fun i' hi' => intY i (Finset.mem_range.1 hi) i' (Finset.mem_range.1 hi'), Finset.sum_eq_single i]
  · simp only [sq]
  · intro i' hi' hii
    exact crossY i (Finset.mem_range.1 hi) i' (Finset.mem_range.1 hi') hii.symm
  · intro hh
    exact absurd hi hh
end

/-- **C125 (flow).** With flow proposals from a flow that covers the target up to a factor `B`, the mean square error of the pooled average over `C` rows of `n` independently started chains is at most `(2 B - 1) / (n C)` times the
variance of `g` under the target. -/
theorem C125_flow (k : Key) (h : IdealOn (Desc k) past sig P env) (r0 : String → Option (Resource ℝ D d M O)) (data : Data D) (μ : Measure (Pos ℝ d)) [IsProbabilityMeasure μ]
    (w w1 : Ω → World ℝ D d M O) (hkey : ∀ ω, (w ω).key = k) (hres : ∀ ω, KeepsSamplers r0 (w ω).heap) (n : ℕ) (hw : ∀ ω, (w ω).xs.length = n) (X : ℕ → Ω → Pos ℝ d)
    (hX : ∀ i < n, ∀ ω, (w ω).xs[i]? = some (X i ω)) (hXm : ∀ i < n, Measurable[past] (X i)) (hXl : ∀ i < n, P.map (X i) = μ) (hXi : ∀ i < n, ∀ i' < n, i ≠ i' → IndepFun (X i) (X i') P)
    (s : TakeSteps) (hk : s.kind = .group) (m : M) (b0 : ℕ) (hb0 : 0 < b0) (hkr : r0 s.kernelName = some (.kernel (.nf m b0))) (lr : Resource ℝ D d M O) (hlr : r0 s.logpdfName = some lr)
    (t : Target ℝ D d) (ht : lr.target? = some t) (hig : IgnoresNSteps t) (hm : Measurable fun x => t.val x data) (hgr : Measurable fun x => t.grad x data) (hμ : SamplesFrom μ fun x => t.val x data)
    (q : Measure (Pos ℝ d)) [hq : IsProbabilityMeasure q] (lnf : Pos ℝ d → ℝ) (hl : Measurable lnf) (hf : IdealFlowOn (Desc k) P sig env m q lnf)
    (B : ℝ) (hB : 1 ≤ B) (hcov : ∀ x, density (fun x => t.val x data) x ≤ B * density lnf x) (hn : 0 < s.nSteps)
    (hcall : ∀ ω, s.run (env ω) (w ω).key (w ω).xs data (w ω).heap = (.ok ((w1 ω).key, (w1 ω).xs), (w1 ω).heap)) (cap cur : ℕ)
    (Pn L A : String) (bP bL bA : Ω → Buffer ℝ) (hpt : ∀ ω, PointsAt (w ω).heap s Pn L A) (hrec : ∀ ω, Recorders (w ω).heap n cap Pn L A (bP ω) (bL ω) (bA ω))
    (hcur : ∀ ω, (w ω).heap.pos s.ident = cur) (hfit : cur + ceilDiv' s.nSteps s.thinning ≤ cap) (hpos : 0 < n) (g : Pos ℝ d → ℝ) (hg : Measurable g) (hg2 : Integrable (fun x => g x ^ 2) μ) :
    ∃ b : Ω → Buffer ℝ, (∀ ω, (w1 ω).heap.res Pn = some (.buffer (b ω))) ∧
    Integrable (fun ω => ((∑ i ∈ Finset.range n, ∑ r ∈ Finset.range (ceilDiv' s.nSteps s.thinning), g (fun a => (b ω).data.get [i, cur + r, a])) / (n * ceilDiv' s.nSteps s.thinning) - ∫ x, g x ∂μ) ^ 2) P ∧
    ∫ ω, ((∑ i ∈ Finset.range n, ∑ r ∈ Finset.range (ceilDiv' s.nSteps s.thinning), g (fun a => (b ω).data.get [i, cur + r, a])) / (n * ceilDiv' s.nSteps s.thinning) - ∫ x, g x ∂μ) ^ 2 ∂P ≤
      (2 * B - 1) / (n * ceilDiv' s.nSteps s.thinning) * ∫ x, (g x - ∫ y, g y ∂μ) ^ 2 ∂μ := by
  have hstep : ExactStepper (Desc k) P sig env r0 data μ s := ⟨lr, t, hlr, ht, hm, hgr, hμ, .inr ⟨hk, hig, m, b0, q, lnf, hb0, hkr, hq, hl, hf⟩⟩
  obtain ⟨b, hb, ei, -, e⟩ := C125_pooled k h r0 data μ w w1 hkey hres n hw X hX hXm hXl hXi s hstep hn hcall cap cur Pn L A bP bL bA hpt hrec hcur hfit hpos g hg hg2
  refine ⟨b, hb, ei, e.trans_le ?_⟩
  have hn' : (0 : ℝ) < n := by exact_mod_cast hpos
  have one : ∀ i ∈ Finset.range n, ∫ ω, ((∑ r ∈ Finset.range (ceilDiv' s.nSteps s.thinning), g (fun a => (b ω).data.get [i, cur + r, a])) / ceilDiv' s.nSteps s.thinning - ∫ x, g x ∂μ) ^ 2 ∂P ≤
      (2 * B - 1) / ceilDiv' s.nSteps s.thinning * ∫ x, (g x - ∫ y, g y ∂μ) ^ 2 ∂μ := by
    intro i hi
    have hi := Finset.mem_range.1 hi
    obtain ⟨b', hb', -, e'⟩ := C123_effective_size k h r0 data μ (fun _ => none) [] (by simp) w w w1 hkey hres i (X i) (hX i hi) (hXm i hi) (hXl i hi) (fun ω => .done _) s hk m b0 hb0 hkr lr hlr t ht hig hm hμ q lnf hl hf B hB hcov hn hcall n cap cur
      hw Pn L A bP bL bA hpt hrec hcur hfit g hg hg2
    obtain rfl : b' = b := by funext ω; have := (hb' ω).symm.trans (hb ω); simpa using this
    exact e'
  have := Finset.sum_le_sum one
  rw [Finset.sum_const, Finset.card_range, nsmul_eq_mul] at this
  rw [div_le_iff₀ (by positivity)]
  refine this.trans_eq ?_
  field_simp

/-- **C125 (error bars).** Hence the pooled average misses the true mean by more than `δ` with probability at most `(2 B - 1) / (n C)` times the variance of `g` divided by `δ²`, for any number of chains and rows. -/
theorem C125_error_bars (k : Key) (h : IdealOn (Desc k) past sig P env) (r0 : String → Option (Resource ℝ D d M O)) (data : Data D) (μ : Measure (Pos ℝ d)) [IsProbabilityMeasure μ]
    (w w1 : Ω → World ℝ D d M O) (hkey : ∀ ω, (w ω).key = k) (hres : ∀ ω, KeepsSamplers r0 (w ω).heap) (n : ℕ) (hw : ∀ ω, (w ω).xs.length = n) (X : ℕ → Ω → Pos ℝ d)
    (hX : ∀ i < n, ∀ ω, (w ω).xs[i]? = some (X i ω)) (hXm : ∀ i < n, Measurable[past] (X i)) (hXl : ∀ i < n, P.map (X i) = μ) (hXi : ∀ i < n, ∀ i' < n, i ≠ i' → IndepFun (X i) (X i') P)
    (s : TakeSteps) (hk : s.kind = .group) (m : M) (b0 : ℕ) (hb0 : 0 < b0) (hkr : r0 s.kernelName = some (.kernel (.nf m b0))) (lr : Resource ℝ D d M O) (hlr : r0 s.logpdfName = some lr)
    (t : Target ℝ D d) (ht : lr.target? = some t) (hig : IgnoresNSteps t) (hm : Measurable fun x => t.val x data) (hgr : Measurable fun x => t.grad x data) (hμ : SamplesFrom μ fun x => t.val x data)
    (q : Measure (Pos ℝ d)) [hq : IsProbabilityMeasure q] (lnf : Pos ℝ d → ℝ) (hl : Measurable lnf) (hf : IdealFlowOn (Desc k) P sig env m q lnf)
    (B : ℝ) (hB : 1 ≤ B) (hcov : ∀ x, density (fun x => t.val x data) x ≤ B * density lnf x) (hn : 0 < s.nSteps)
    (hcall : ∀ ω, s.run (env ω) (w ω).key (w ω).xs data (w ω).heap = (.ok ((w1 ω).key, (w1 ω).xs), (w1 ω).heap)) (cap cur : ℕ)
    (Pn L A : String) (bP bL bA : Ω → Buffer ℝ) (hpt : ∀ ω, PointsAt (w ω).heap s Pn L A) (hrec : ∀ ω, Recorders (w ω).heap n cap Pn L A (bP ω) (bL ω) (bA ω))
    (hcur : ∀ ω, (w ω).heap.pos s.ident = cur) (hfit : cur + ceilDiv' s.nSteps s.thinning ≤ cap) (hpos : 0 < n) (g : Pos ℝ d → ℝ) (hg : Measurable g) (hg2 : Integrable (fun x => g x ^ 2) μ) (δ : ℝ) (hδ : 0 < δ) :
    ∃ b : Ω → Buffer ℝ, (∀ ω, (w1 ω).heap.res Pn = some (.buffer (b ω))) ∧
    P.real {ω | δ < |(∑ i ∈ Finset.range n, ∑ r ∈ Finset.range (ceilDiv' s.nSteps s.thinning), g (fun a => (b ω).data.get [i, cur + r, a])) / (n * ceilDiv' s.nSteps s.thinning) - ∫ x, g x ∂μ|} ≤
      (2 * B - 1) / (n * ceilDiv' s.nSteps s.thinning) * (∫ x, (g x - ∫ y, g y ∂μ) ^ 2 ∂μ) / δ ^ 2 := by
  obtain ⟨b, hb, ei, e⟩ := C125_flow k h r0 data μ w w1 hkey hres n hw X hX hXm hXl hXi s hk m b0 hb0 hkr lr hlr t ht hig hm hgr hμ q lnf hl hf B hB hcov hn hcall cap cur Pn L A bP bL bA hpt hrec hcur hfit hpos g hg hg2
  refine ⟨b, hb, ?_⟩
  rw [le_div_iff₀ (by positivity), mul_comm]
  refine le_trans ?_ e
  refine le_trans ?_ (mul_meas_ge_le_integral_of_nonneg (Filter.Eventually.of_forall fun ω => sq_nonneg _) ei (δ ^ 2))
  refine mul_le_mul_of_nonneg_left (measureReal_mono (fun ω hω => ?_) (measure_ne_top P _)) (sq_nonneg δ)
  show δ ^ 2 ≤ _ ^ 2
  rw [sq_le_sq, abs_of_pos hδ]
  exact le_of_lt hω

/-- **C125 (at most `n C` draws).** With flow proposals or random walk moves, the mean square error of the pooled average over `C` rows of `n` independently started chains is at least `1 / (n C)` times the variance of `g` under
the target: the pooled rows never count for more than `n C` independent draws. -/
theorem C125_at_most (k : Key) (h : IdealOn (Desc k) past sig P env) (r0 : String → Option (Resource ℝ D d M O)) (data : Data D) (μ : Measure (Pos ℝ d)) [IsProbabilityMeasure μ]
    (w w1 : Ω → World ℝ D d M O) (hkey : ∀ ω, (w ω).key = k) (hres : ∀ ω, KeepsSamplers r0 (w ω).heap) (n : ℕ) (hw : ∀ ω, (w ω).xs.length = n) (X : ℕ → Ω → Pos ℝ d)
    (hX : ∀ i < n, ∀ ω, (w ω).xs[i]? = some (X i ω)) (hXm : ∀ i < n, Measurable[past] (X i)) (hXl : ∀ i < n, P.map (X i) = μ) (hXi : ∀ i < n, ∀ i' < n, i ≠ i' → IndepFun (X i) (X i') P)
    (s : TakeSteps) (hstep : ExactStepper (Desc k) P sig env r0 data μ s) (hwf : WalkOrFlow r0 s) (hn : 0 < s.nSteps)
    (hcall : ∀ ω, s.run (env ω) (w ω).key (w ω).xs data (w ω).heap = (.ok ((w1 ω).key, (w1 ω).xs), (w1 ω).heap)) (cap cur : ℕ)
    (Pn L A : String) (bP bL bA : Ω → Buffer ℝ) (hpt : ∀ ω, PointsAt (w ω).heap s Pn L A) (hrec : ∀ ω, Recorders (w ω).heap n cap Pn L A (bP ω) (bL ω) (bA ω))
    (hcur : ∀ ω, (w ω).heap.pos s.ident = cur) (hfit : cur + ceilDiv' s.nSteps s.thinning ≤ cap) (hpos : 0 < n) (g : Pos ℝ d → ℝ) (hg : Measurable g) (hg2 : Integrable (fun x => g x ^ 2) μ) :
    ∃ b : Ω → Buffer ℝ, (∀ ω, (w1 ω).heap.res Pn = some (.buffer (b ω))) ∧
    (∫ x, (g x - ∫ y, g y ∂μ) ^ 2 ∂μ) / (n * ceilDiv' s.nSteps s.thinning) ≤
    ∫ ω, ((∑ i ∈ Finset.range n, ∑ r ∈ Finset.range (ceilDiv' s.nSteps s.thinning), g (fun a => (b ω).data.get [i, cur + r, a])) / (n * ceilDiv' s.nSteps s.thinning) - ∫ x, g x ∂μ) ^ 2 ∂P := by
  obtain ⟨b, hb, ei, -, e⟩ := C125_pooled k h r0 data μ w w1 hkey hres n hw X hX hXm hXl hXi s hstep hn hcall cap cur Pn L A bP bL bA hpt hrec hcur hfit hpos g hg hg2
  refine ⟨b, hb, e.symm ▸ ?_⟩
  have hn' : (0 : ℝ) < n := by exact_mod_cast hpos
  have one : ∀ i ∈ Finset.range n, (∫ x, (g x - ∫ y, g y ∂μ) ^ 2 ∂μ) / ceilDiv' s.nSteps s.thinning ≤
      ∫ ω, ((∑ r ∈ Finset.range (ceilDiv' s.nSteps s.thinning), g (fun a => (b ω).data.get [i, cur + r, a])) / ceilDiv' s.nSteps s.thinning - ∫ x, g x ∂μ) ^ 2 ∂P := by
    intro i hi
    have hi := Finset.mem_range.1 hi
    obtain ⟨b', hb', e'⟩ := C122_effective_size k h r0 data μ (fun _ => none) [] (by simp) w w w1 hkey hres i (X i) (hX i hi) (hXm i hi) (hXl i hi) (fun ω => .done _) s hstep hwf hn hcall n cap cur
      hw Pn L A bP bL bA hpt hrec hcur hfit g hg hg2 (∫ y, g y ∂μ)
    obtain rfl : b' = b := by funext ω; have := (hb' ω).symm.trans (hb ω); simpa using this
    exact e'
  have := Finset.sum_le_sum one
  rw [Finset.sum_const, Finset.card_range, nsmul_eq_mul] at this
  rw [le_div_iff₀ (by positivity)]
  refine le_trans (le_of_eq ?_) this
  field_simp

theorem convex_sq_dist (c : ℝ) : ConvexOn ℝ Set.univ fun y : ℝ => (y - c) ^ 2 := by
  have := (even_two.convexOn_pow (𝕜 := ℝ)).translate_left (-c)
  simpa [Function.comp_def, sub_eq_add_neg] using this

/-- **C125 (thinning).** A call of an exact stepper is made with thinning `t` (a divisor of its number of steps), or without.  The mean square error of the average over all rows of all chains is without thinning at most what it is
with thinning. -/
theorem C125_thinning (k : Key) (h : IdealOn (Desc k) past sig P env) (r0 : String → Option (Resource ℝ D d M O)) (data : Data D) (μ : Measure (Pos ℝ d)) [IsProbabilityMeasure μ]
    (w w1 w2 : Ω → World ℝ D d M O) (hkey : ∀ ω, (w ω).key = k) (hres : ∀ ω, KeepsSamplers r0 (w ω).heap) (n : ℕ) (hw : ∀ ω, (w ω).xs.length = n) (X : ℕ → Ω → Pos ℝ d)
    (hX : ∀ i < n, ∀ ω, (w ω).xs[i]? = some (X i ω)) (hXm : ∀ i < n, Measurable[past] (X i)) (hXl : ∀ i < n, P.map (X i) = μ) (hXi : ∀ i < n, ∀ i' < n, i ≠ i' → IndepFun (X i) (X i') P)
    (s : TakeSteps) (hstep : ExactStepper (Desc k) P sig env r0 data μ s) (hn : 0 < s.nSteps) (hdvd : s.thinning ∣ s.nSteps)
    (hcall : ∀ ω, s.run (env ω) (w ω).key (w ω).xs data (w ω).heap = (.ok ((w1 ω).key, (w1 ω).xs), (w1 ω).heap))
    (hcall2 : ∀ ω, ({ s with thinning := 1 } : TakeSteps).run (env ω) (w ω).key (w ω).xs data (w ω).heap = (.ok ((w2 ω).key, (w2 ω).xs), (w2 ω).heap)) (cap cur : ℕ)
    (Pn L A : String) (bP bL bA : Ω → Buffer ℝ) (hpt : ∀ ω, PointsAt (w ω).heap s Pn L A) (hrec : ∀ ω, Recorders (w ω).heap n cap Pn L A (bP ω) (bL ω) (bA ω))
    (hcur : ∀ ω, (w ω).heap.pos s.ident = cur) (hfit : cur + s.nSteps ≤ cap) (hpos : 0 < n) (g : Pos ℝ d → ℝ) (hg : Measurable g) (hg2 : Integrable (fun x => g x ^ 2) μ) :
    ∃ b1 b2 : Ω → Buffer ℝ, (∀ ω, (w1 ω).heap.res Pn = some (.buffer (b1 ω))) ∧ (∀ ω, (w2 ω).heap.res Pn = some (.buffer (b2 ω))) ∧
    ∫ ω, ((∑ i ∈ Finset.range n, ∑ r ∈ Finset.range s.nSteps, g (fun a => (b2 ω).data.get [i, cur + r, a])) / (n * s.nSteps) - ∫ x, g x ∂μ) ^ 2 ∂P ≤
    ∫ ω, ((∑ i ∈ Finset.range n, ∑ r ∈ Finset.range (s.nSteps / s.thinning), g (fun a => (b1 ω).data.get [i, cur + r, a])) / (n * (s.nSteps / s.thinning : ℕ)) - ∫ x, g x ∂μ) ^ 2 ∂P := by
  have ht : 0 < s.thinning := Nat.pos_of_dvd_of_pos hdvd hn
  have hceil : ceilDiv' s.nSteps s.thinning = s.nSteps / s.thinning := ceilDiv_dvd ht hdvd
  have hceil2 : ceilDiv' ({ s with thinning := 1 } : TakeSteps).nSteps ({ s with thinning := 1 } : TakeSteps).thinning = s.nSteps := (ceilDiv_dvd Nat.one_pos (one_dvd _)).trans (Nat.div_one _)
  have hle : s.nSteps / s.thinning ≤ s.nSteps := Nat.div_le_self _ _
  obtain ⟨b1, hb1, -, i1, e1⟩ := C125_pooled k h r0 data μ w w1 hkey hres n hw X hX hXm hXl hXi s hstep hn hcall cap cur Pn L A bP bL bA hpt hrec hcur (by rw [hceil]; omega) hpos g hg hg2
  obtain ⟨b2, hb2, -, i2, e2⟩ := C125_pooled k h r0 data μ w w2 hkey hres n hw X hX hXm hXl hXi { s with thinning := 1 } hstep hn hcall2 cap cur Pn L A bP bL bA hpt hrec hcur (by rw [hceil2]; exact hfit) hpos g hg hg2
  rw [hceil] at i1 e1
  rw [hceil2] at i2 e2
  refine ⟨b1, b2, hb1, hb2, ?_⟩
  rw [e1, e2]
  refine div_le_div_of_nonneg_right (Finset.sum_le_sum fun i hi => ?_) (sq_nonneg _)
  have hi := Finset.mem_range.1 hi
  obtain ⟨b1', b2', hb1', hb2', e⟩ := C120_thinning k h r0 data μ (fun _ => none) [] (by simp) w w w1 w2 hkey hres i (X i) (hX i hi) (hXm i hi) (hXl i hi) (fun ω => .done _) s hstep hn hdvd hcall n cap cur
    hw Pn L A bP bL bA hpt hrec hcur g hg (fun y => (y - ∫ x, g x ∂μ) ^ 2) (convex_sq_dist _) (by fun_prop) (fun _ => sq_nonneg _) hfit hcall2
  obtain rfl : b1' = b1 := by funext ω; have := (hb1' ω).symm.trans (hb1 ω); simpa using this
  obtain rfl : b2' = b2 := by funext ω; have := (hb2' ω).symm.trans (hb2 ω); simpa using this
  rw [← ofReal_integral_eq_lintegral_ofReal (i1 i hi) (Filter.Eventually.of_forall fun _ => sq_nonneg _), ← ofReal_integral_eq_lintegral_ofReal (i2 i hi) (Filter.Eventually.of_forall fun _ => sq_nonneg _)] at e
  exact (ENNReal.ofReal_le_ofReal_iff (integral_nonneg fun _ => sq_nonneg _)).1 e

/-- **C125 (longer calls).** A call with `m` times as many steps never makes the mean square error of the average over all rows of all chains larger. -/
theorem C125_longer (k : Key) (h : IdealOn (Desc k) past sig P env) (r0 : String → Option (Resource ℝ D d M O)) (data : Data D) (μ : Measure (Pos ℝ d)) [IsProbabilityMeasure μ]
    (w w1 w2 : Ω → World ℝ D d M O) (hkey : ∀ ω, (w ω).key = k) (hres : ∀ ω, KeepsSamplers r0 (w ω).heap) (n : ℕ) (hw : ∀ ω, (w ω).xs.length = n) (X : ℕ → Ω → Pos ℝ d)
    (hX : ∀ i < n, ∀ ω, (w ω).xs[i]? = some (X i ω)) (hXm : ∀ i < n, Measurable[past] (X i)) (hXl : ∀ i < n, P.map (X i) = μ) (hXi : ∀ i < n, ∀ i' < n, i ≠ i' → IndepFun (X i) (X i') P)
    (s : TakeSteps) (hstep : ExactStepper (Desc k) P sig env r0 data μ s) (hn : 0 < s.nSteps) (hdvd : s.thinning ∣ s.nSteps)
    (hcall : ∀ ω, s.run (env ω) (w ω).key (w ω).xs data (w ω).heap = (.ok ((w1 ω).key, (w1 ω).xs), (w1 ω).heap))
    (m : ℕ) (hm0 : 0 < m) (hcall2 : ∀ ω, ({ s with nSteps := m * s.nSteps } : TakeSteps).run (env ω) (w ω).key (w ω).xs data (w ω).heap = (.ok ((w2 ω).key, (w2 ω).xs), (w2 ω).heap)) (cap cur : ℕ)
    (Pn L A : String) (bP bL bA : Ω → Buffer ℝ) (hpt : ∀ ω, PointsAt (w ω).heap s Pn L A) (hrec : ∀ ω, Recorders (w ω).heap n cap Pn L A (bP ω) (bL ω) (bA ω))
    (hcur : ∀ ω, (w ω).heap.pos s.ident = cur) (hfit : cur + m * (s.nSteps / s.thinning) ≤ cap) (hpos : 0 < n) (g : Pos ℝ d → ℝ) (hg : Measurable g) (hg2 : Integrable (fun x => g x ^ 2) μ) :
    ∃ b1 b2 : Ω → Buffer ℝ, (∀ ω, (w1 ω).heap.res Pn = some (.buffer (b1 ω))) ∧ (∀ ω, (w2 ω).heap.res Pn = some (.buffer (b2 ω))) ∧
    ∫ ω, ((∑ i ∈ Finset.range n, ∑ r ∈ Finset.range (m * (s.nSteps / s.thinning)), g (fun a => (b2 ω).data.get [i, cur + r, a])) / (n * (m * (s.nSteps / s.thinning) : ℕ)) - ∫ x, g x ∂μ) ^ 2 ∂P ≤
    ∫ ω, ((∑ i ∈ Finset.range n, ∑ r ∈ Finset.range (s.nSteps / s.thinning), g (fun a => (b1 ω).data.get [i, cur + r, a])) / (n * (s.nSteps / s.thinning : ℕ)) - ∫ x, g x ∂μ) ^ 2 ∂P := by
  have ht : 0 < s.thinning := Nat.pos_of_dvd_of_pos hdvd hn
  have hceil : ceilDiv' s.nSteps s.thinning = s.nSteps / s.thinning := ceilDiv_dvd ht hdvd
  have hceil2 : ceilDiv' ({ s with nSteps := m * s.nSteps } : TakeSteps).nSteps ({ s with nSteps := m * s.nSteps } : TakeSteps).thinning = m * (s.nSteps / s.thinning) := (ceilDiv_dvd ht (hdvd.mul_left m)).trans (Nat.mul_div_assoc m hdvd)
  have hle : s.nSteps / s.thinning ≤ m * (s.nSteps / s.thinning) := Nat.le_mul_of_pos_left _ hm0
  obtain ⟨b1, hb1, -, i1, e1⟩ := C125_pooled k h r0 data μ w w1 hkey hres n hw X hX hXm hXl hXi s hstep hn hcall cap cur Pn L A bP bL bA hpt hrec hcur (by rw [hceil]; omega) hpos g hg hg2
  obtain ⟨b2, hb2, -, i2, e2⟩ := C125_pooled k h r0 data μ w w2 hkey hres n hw X hX hXm hXl hXi { s with nSteps := m * s.nSteps } hstep (Nat.mul_pos hm0 hn) hcall2 cap cur Pn L A bP bL bA hpt hrec hcur (by rw [hceil2]; exact hfit) hpos g hg hg2
  rw [hceil] at i1 e1
  rw [hceil2] at i2 e2
  refine ⟨b1, b2, hb1, hb2, ?_⟩
  rw [e1, e2]
  refine div_le_div_of_nonneg_right (Finset.sum_le_sum fun i hi => ?_) (sq_nonneg _)
  have hi := Finset.mem_range.1 hi
  obtain ⟨b1', b2', hb1', hb2', e⟩ := C120_longer k h r0 data μ (fun _ => none) [] (by simp) w w w1 w2 hkey hres i (X i) (hX i hi) (hXm i hi) (hXl i hi) (fun ω => .done _) s hstep hn hdvd hcall n cap cur
    hw Pn L A bP bL bA hpt hrec hcur g hg (fun y => (y - ∫ x, g x ∂μ) ^ 2) (convex_sq_dist _) (by fun_prop) (fun _ => sq_nonneg _) m hm0 hfit hcall2
  obtain rfl : b1' = b1 := by funext ω; have := (hb1' ω).symm.trans (hb1 ω); simpa using this
  obtain rfl : b2' = b2 := by funext ω; have := (hb2' ω).symm.trans (hb2 ω); simpa using this
  rw [← ofReal_integral_eq_lintegral_ofReal (i1 i hi) (Filter.Eventually.of_forall fun _ => sq_nonneg _), ← ofReal_integral_eq_lintegral_ofReal (i2 i hi) (Filter.Eventually.of_forall fun _ => sq_nonneg _)] at e
  exact (ENNReal.ofReal_le_ofReal_iff (integral_nonneg fun _ => sq_nonneg _)).1 e

end FlowMC
