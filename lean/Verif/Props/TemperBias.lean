import Verif.Props.TemperLaw
import Verif.Lemmas.Freeze
import Verif.Lemmas.BundleRun
/-
C78: what repeated tempering calls outside training do to the cold chain (C65 turned into a statement about distributions).
-/
open MeasureTheory ProbabilityTheory
open scoped ENNReal
set_option linter.unusedSectionVars false
namespace FlowMC
open Spec

variable {Ω D M O : Type} {d : ℕ}

/-- The key of the `j`-th of successive tempering calls. -/
def temperKey (k : Key) : ℕ → Key
  | 0 => k
  | j + 1 => .child (.child (.child (temperKey k j) 0) 0) 0

/-- The key of the exchange decision of chain `c` in the call with key `k` (two temperatures). -/
def swapKey (k : Key) (c : ℕ) : Key := .child (.child (.child (.child (.child k 0) 0) 1) c) 1

theorem temperKey_desc (k : Key) (j : ℕ) : Desc k (temperKey k j) := by
  induction j with
  | zero => exact .refl
  | succ j ih => exact .child 0 (.child 0 (.child 0 ih))

theorem coldRow_getElem (ws : List (ExchCarry ℝ d × List Bool)) (m : ℕ) (h : ∀ e ∈ ws, e.1.positions.length = m + 1) (c : ℕ) (e : ExchCarry ℝ d × List Bool)
    (he : ws[c]? = some e) (x : Pos ℝ d) (hx : e.1.positions[0]? = some x) : (ws.filterMap (fun e => e.1.positions.head?))[c]? = some x := by
  have : ∀ ws : List (ExchCarry ℝ d × List Bool), (∀ e ∈ ws, e.1.positions.length = m + 1) →
      ws.filterMap (fun e => e.1.positions.head?) = ws.map (fun e => e.1.positions.getD 0 (fun _ => 0)) := by
    intro ws
    induction ws with
    | nil => intro _; rfl
    | cons w ws ih =>
      intro hh
      have hw := hh w (by simp)
      have ih' := ih fun e he => hh e (by simp [he])
      match hp : w.1.positions with
      | [] => simp [hp] at hw
      | a :: as => simp [List.filterMap_cons, hp, ih']
  rw [this _ h, List.getElem?_map, he, Option.map_some, List.getD_eq_getElem?_getD, hx]
  rfl

/-- The log-ratio of exchanging a walker at temperature 1 with one at temperature `T`. -/
noncomputable def swapRatio (l : TemperedPDF ℝ D d) (data : Data D) (T : ℝ) (p : Pos ℝ d × Pos ℝ d) : ℝ :=
  (1 / T - 1) * (l.base.logPdf.val p.1 data - l.base.logPdf.val p.2 data)

theorem exchange_two (rng : Rng ℝ) (l : TemperedPDF ℝ D d) (data : Data D) (T : ℝ) (k : Key) (x r : Pos ℝ d) :
    (exchange rng l data [1, T] k [x, r]).1.positions[0]? = some (if Real.log (rng.uniform (.child k 1)) < swapRatio l data T (x, r) then r else x) := by
  simp only [exchange, exchScan, exchBody, List.length_cons, List.length_nil, Nat.zero_add, Nat.reduceAdd, Nat.add_one_sub_one, split, exchRatio, List.map_cons, List.map_nil,
    List.getD_cons_succ, List.getD_cons_zero, swapAt, List.getElem?_cons_zero, List.getElem?_cons_succ, List.set_cons_zero, List.set_cons_succ, LogPDF.call, div_one]
  have hacc : ∀ u r : ℝ, acceptTest u r = decide (Real.log u < r) := fun u r => by
    rw [Bool.eq_iff_iff, acceptTest_real]; simp
  have hr : swapRatio l data T (x, r) = (1 / T - 1) * (l.base.logPdf.val x data - l.base.logPdf.val r data) := rfl
  simp only [hacc, decide_eq_true_eq, TemperedPDF.call, LogPDF.call, ← hr]
  by_cases hh : Real.log (rng.uniform (.child k 1)) < swapRatio l data T (x, r)
  · rw [if_pos hh, if_pos hh]; rfl
  · rw [if_neg hh, if_neg hh]; rfl

/-- One call with no local moves, two temperatures and `training` off: the walker of chain `c` is exchanged with the stored replica or stays. -/
theorem swap_call [BufNum ℝ] (env : Env ℝ D d M O) (s : ParallelTempering) (hs : s.nSteps = 0) (k : Key) (xs : List (Pos ℝ d)) (data : Data D) (h : Heap ℝ D d M O) (pname tname : String)
    (pb tb : Buffer ℝ) (K : LocalKernel ℝ D d) (l : TemperedPDF ℝ D d) (v : SVal) (site : TemperSite s h env.rng xs.length 1 pname tname pb tb K l v) (hv : v.truthy = false)
    (T : ℝ) (hT : ladder tb 1 = [1, T]) (c : ℕ) (x : Pos ℝ d) (hx : xs[c]? = some x) :
    ∃ ys, s.run env k xs data h = (.ok (.child (.child (.child k 0) 0) 0, ys), h) ∧ ys.length = xs.length ∧
      ys[c]? = some (if Real.log (env.rng.uniform (swapKey k c)) < swapRatio l data T (x, row3 pb.data c 0) then row3 pb.data c 0 else x) := by
  have hw := temperedWalkers_length env.rng s k xs data 1 pb tb K l
  refine ⟨_, C35_frozen env s k xs data h 1 pname tname pb tb K l v site hv, ?_, ?_⟩
  · rw [← hw.1]
    have : ∀ ws : List (ExchCarry ℝ d × List Bool), (∀ e ∈ ws, e.1.positions.length = 1 + 1) → (ws.filterMap (fun e => e.1.positions.head?)).length = ws.length := by
      intro ws
      induction ws with
      | nil => intro _; rfl
      | cons w ws ih =>
        intro hh
        have hw := hh w (by simp)
        have ih' := ih fun e he => hh e (by simp [he])
        match hp : w.1.positions with
        | [] => simp [hp] at hw
        | a :: as => simp [List.filterMap_cons, hp, ih']
    exact this _ hw.2
  · have he : (temperedWalkers env.rng s k xs data 1 pb tb K l)[c]? = some (exchange env.rng l data (ladder tb 1) (.child (.child (.child (.child k 0) 0) 1) c)
        (ensembleStep K l data s.nSteps (.child (.child (.child k 0) 1) c) [x, row3 pb.data c 0] (ladder tb 1))) := by
      simp only [temperedWalkers, List.getElem?_map, List.getElem?_zipIdx, hx, Option.map_some, Nat.zero_add]
      rfl
    refine coldRow_getElem _ 1 hw.2 c _ he _ ?_
    have hens : ∀ k', ensembleStep K l data s.nSteps k' [x, row3 pb.data c 0] [1, T] = [x, row3 pb.data c 0] := by
      intro k'
      rw [hs]
      rfl
    rw [hT, hens, exchange_two]
    rfl

/-- The walker of a chain after `N` such calls. -/
noncomputable def coldAfter (l : TemperedPDF ℝ D d) (data : Data D) (T : ℝ) (u : ℕ → ℝ) (x r : Pos ℝ d) : ℕ → Pos ℝ d
  | 0 => x
  | N + 1 => if Real.log (u N) < swapRatio l data T (coldAfter l data T u x r N, r) then r else coldAfter l data T u x r N

theorem swap_calls [BufNum ℝ] (env : Env ℝ D d M O) (strats : String → Option (Strategy ℝ D d M O)) (name : String) (s : ParallelTempering)
    (hname : strats name = some (.parallelTempering s)) (hs : s.nSteps = 0) (k : Key) (xs : List (Pos ℝ d)) (data : Data D) (h : Heap ℝ D d M O) (pname tname : String)
    (pb tb : Buffer ℝ) (K : LocalKernel ℝ D d) (l : TemperedPDF ℝ D d) (v : SVal) (site : TemperSite s h env.rng xs.length 1 pname tname pb tb K l v) (hv : v.truthy = false)
    (T : ℝ) (hT : ladder tb 1 = [1, T]) (c : ℕ) (x : Pos ℝ d) (hx : xs[c]? = some x) (N : ℕ) :
    ∃ ys, Completes env strats data (List.replicate N name) ⟨k, xs, h⟩ ⟨temperKey k N, ys, h⟩ ∧ ys.length = xs.length ∧
      ys[c]? = some (coldAfter l data T (fun j => env.rng.uniform (swapKey (temperKey k j) c)) x (row3 pb.data c 0) N) := by
  induction N with
  | zero => exact ⟨xs, .done _, rfl, hx⟩
  | succ N ih =>
    obtain ⟨ys, h1, h2, h3⟩ := ih
    rw [← h2] at site
    obtain ⟨zs, r1, r2, r3⟩ := swap_call env s hs (temperKey k N) ys data h pname tname pb tb K l v site hv T hT c _ h3
    refine ⟨zs, ?_, r2.trans h2, r3⟩
    rw [List.replicate_succ', completes_append]
    exact ⟨_, h1, .next hname r1 (.done _)⟩

/-- The exchange happens at the first test that passes, and nothing happens afterwards. -/
theorem coldAfter_eq (l : TemperedPDF ℝ D d) (data : Data D) (T : ℝ) (U : ℕ → Ω → ℝ) (Z : Ω → Pos ℝ d × Pos ℝ d) (N : ℕ) (ω : Ω) :
    coldAfter l data T (fun j => U j ω) (Z ω).1 (Z ω).2 N = if passed (swapRatio l data T) Z U N ω then (Z ω).2 else (Z ω).1 := by
  induction N with
  | zero => rfl
  | succ N ih =>
    simp only [coldAfter, ih, passed, Bool.or_eq_true, decide_eq_true_eq]
    by_cases hp : passed (swapRatio l data T) Z U N ω = true
    · simp [hp]
    · simp [hp]

variable {past : MeasurableSpace Ω} {sig : Key → MeasurableSpace Ω} [mΩ : MeasurableSpace Ω] {P : Measure Ω} [IsProbabilityMeasure P] {env : Ω → Env ℝ D d M O}

theorem freshSwaps (h : IdealDraws past sig P env) (k : Key) (S : Set (Option Key)) (hS : Disjoint S (descSet k)) (c : ℕ) (Z : Ω → Pos ℝ d × Pos ℝ d)
    (hZ : Measurable[info past sig S] Z) :
    FreshTests P Z (fun j ω => (env ω).rng.uniform (swapKey (temperKey k j) c)) (fun j => info past sig (S ∪ (descSet k \ descSet (temperKey k j)))) := by
  have hin : ∀ j, some (swapKey (temperKey k j) c) ∈ descSet (temperKey k j) := fun j =>
    mem_descSet (.child 1 (.child c (.child 1 (.child 0 (.child 0 .refl)))))
  have hnot : ∀ j, some (swapKey (temperKey k j) c) ∉ descSet (temperKey k (j + 1)) := by
    rintro j ⟨a, ha, hd⟩
    obtain rfl : swapKey (temperKey k j) c = a := by simpa using ha
    exact children_disjoint (k := .child (.child (temperKey k j) 0) 0) (i := 0) (j := 1) (by decide) ⟨hd, .child 1 (.child c .refl)⟩
  have hmono : ∀ j, descSet (temperKey k (j + 1)) ⊆ descSet (temperKey k j) := fun j => descSet_child.trans (descSet_child.trans descSet_child)
  refine ⟨fun N => h.info_le _, fun N => info_mono (Set.union_subset_union_right _ (Set.sdiff_subset_sdiff_right (hmono N))), hZ.mono (info_mono Set.subset_union_left) le_rfl,
    fun N => ?_, fun N V hV => ?_, fun N => h.uniform_law _ trivial⟩
  · refine (h.uniform_meas _ trivial).mono (sig_le_info (Or.inr ⟨?_, hnot N⟩)) le_rfl
    exact descSet_mono (temperKey_desc k N) (hin N)
  · have := h.joint (S := S ∪ (descSet k \ descSet (temperKey k N))) (S' := descSet (temperKey k N)) ?_ hV ((h.uniform_meas (swapKey (temperKey k N) c) trivial).mono (sig_le_info (hin N)) le_rfl)
    · rw [this, h.uniform_law _ trivial]
    · rw [Set.disjoint_union_left]
      exact ⟨hS.mono_right (descSet_mono (temperKey_desc k N)), Set.disjoint_sdiff_left⟩


theorem targetMeasure_set_ne_zero (g : Pos ℝ d → ℝ) (hg : Measurable g) (B : Set (Pos ℝ d)) (hB : MeasurableSet B) (h : volume B ≠ 0) : targetMeasure g B ≠ 0 := by
  unfold targetMeasure
  have hm : Measurable (fun x => ENNReal.ofReal (Real.exp (g x))) := (Real.measurable_exp.comp hg).ennreal_ofReal
  rw [withDensity_apply _ hB, ← pos_iff_ne_zero, setLIntegral_pos_iff hm]
  have : Function.support (fun x => ENNReal.ofReal (Real.exp (g x))) = Set.univ := by ext x; simp [Real.exp_pos]
  rw [this, Set.univ_inter]
  exact pos_iff_ne_zero.2 h

/-- **C78.** Two temperatures `1 < T`, no local moves between the exchanges, `training` off, replicas that start with the joint tempered distribution.  The walker handed on
by the first tempering call has the distribution of the cold replica, as C32 says.  But every further call shifts probability away from the region of high likelihood, and the
distribution of the walker converges to that of the hot replica: the stored replica is never exchanged away, so the walker ends up on it.  (No property of the sampler other
than the discarded replica update is used: with the update, all these walkers would have the cold distribution, by C32.) -/
theorem C78_cold_chain_drifts [BufNum ℝ] (h : IdealDraws past sig P env) (strats : String → Option (Strategy ℝ D d M O)) (name : String) (s : ParallelTempering)
    (hname : strats name = some (.parallelTempering s)) (hs : s.nSteps = 0) (l : TemperedPDF ℝ D d) (data : Data D) (hL : Measurable (fun x => l.base.logPdf.val x data))
    (hp : Measurable (fun x => l.logPrior.val x data)) (T : ℝ) (hT1 : 1 < T) (μ : Measure (Fin 2 → Pos ℝ d)) (hμ : ∃ Z : ℝ≥0∞, μ = Z • jointTempered l data ![1, T])
    (k : Key) (S : Set (Option Key)) (hS : Disjoint S (descSet k)) (heap : Ω → Heap ℝ D d M O) (xs : Ω → List (Pos ℝ d)) (pname tname : String) (pb tb : Ω → Buffer ℝ)
    (K : Ω → LocalKernel ℝ D d) (v : SVal) (hv : v.truthy = false) (N0 : ℕ) (hlen : ∀ ω, (xs ω).length = N0)
    (site : ∀ ω, TemperSite s (heap ω) (env ω).rng (xs ω).length 1 pname tname (pb ω) (tb ω) (K ω) l v) (hT : ∀ ω, ladder (tb ω) 1 = [1, T]) (c : ℕ) (hc : c < N0)
    (hX : Measurable[info past sig S] (fun ω => replicasOf (xs ω) (pb ω) c 1)) (hlaw : P.map (fun ω => replicasOf (xs ω) (pb ω) c 1) = μ) :
    ∃ Y : ℕ → Ω → Pos ℝ d,
      (∀ N ω, ∃ k' ys, Completes (env ω) strats data (List.replicate N name) ⟨k, xs ω, heap ω⟩ ⟨k', ys, heap ω⟩ ∧ ys[c]? = some (Y N ω)) ∧ (∀ N, Measurable (Y N)) ∧
      SamplesFrom (P.map (Y 0)) (fun x => l.base.logPdf.val x data + l.logPrior.val x data) ∧ P.map (Y 1) = P.map (Y 0) ∧
      (∀ N, 1 ≤ N → ∀ a, volume {x : Pos ℝ d | a ≤ l.base.logPdf.val x data} ≠ 0 → volume {x : Pos ℝ d | l.base.logPdf.val x data < a} ≠ 0 →
        P {ω | a ≤ l.base.logPdf.val (Y (N + 1) ω) data} < P {ω | a ≤ l.base.logPdf.val (Y N ω) data}) ∧
      ∃ hot : Measure (Pos ℝ d), SamplesFrom hot (fun x => l.base.logPdf.val x data / T + l.logPrior.val x data) ∧ TVConverges (fun N => P.map (Y N)) hot := by
  let X : Ω → Fin 2 → Pos ℝ d := fun ω => replicasOf (xs ω) (pb ω) c 1
  let Z : Ω → Pos ℝ d × Pos ℝ d := fun ω => (X ω 0, X ω 1)
  have hZ : Measurable[info past sig S] Z := ((measurable_pi_apply 0).comp hX).prodMk ((measurable_pi_apply 1).comp hX)
  let U : ℕ → Ω → ℝ := fun j ω => (env ω).rng.uniform (swapKey (temperKey k j) c)
  have hfresh := freshSwaps h k S hS c Z hZ
  have hf : Measurable (swapRatio l data T) := ((hL.comp measurable_fst).sub (hL.comp measurable_snd)).const_mul _
  let Y : ℕ → Ω → Pos ℝ d := fun N ω => if passed (swapRatio l data T) Z U N ω then (Z ω).2 else (Z ω).1
  have hZm : Measurable Z := hZ.mono (h.info_le _) le_rfl
  have hXm : Measurable X := hX.mono (h.info_le _) le_rfl
  have hpm : ∀ N, MeasurableSet {ω | passed (swapRatio l data T) Z U N ω = true} := fun N =>
    ((passed_meas hfresh hf N).mono (hfresh.le N) le_rfl) (measurableSet_singleton true)
  have hYm : ∀ N, Measurable (Y N) := fun N => Measurable.ite (hpm N) (measurable_snd.comp hZm) (measurable_fst.comp hZm)
  have hY0 : Y 0 = fun ω => X ω 0 := rfl
  have hruns : ∀ N ω, ∃ ys, Completes (env ω) strats data (List.replicate N name) ⟨k, xs ω, heap ω⟩ ⟨temperKey k N, ys, heap ω⟩ ∧ ys[c]? = some (Y N ω) := by
    intro N ω
    have hcω : c < (xs ω).length := by rw [hlen]; exact hc
    obtain ⟨ys, h1, -, h3⟩ := swap_calls (env ω) strats name s hname hs k (xs ω) data (heap ω) pname tname (pb ω) (tb ω) (K ω) l v (site ω) hv T (hT ω) c _
      (List.getElem?_eq_getElem hcω) N
    refine ⟨ys, h1, h3.trans ?_⟩
    have e1 : (xs ω)[c] = (Z ω).1 := by simp [Z, X, replicasOf, List.getD_eq_getElem?_getD, List.getElem?_eq_getElem hcω]
    have e2 : (row3 (pb ω).data c 0 : Pos ℝ d) = (Z ω).2 := by simp [Z, X, replicasOf]
    rw [e1, e2]
    exact congrArg some (coldAfter_eq l data T U Z N ω)
  refine ⟨Y, fun N ω => ⟨_, hruns N ω⟩, hYm, ?_, ?_, ?_, ?_⟩
  · exact C32_cold_chain l data hL hp ![1, T] rfl μ hμ X hXm hlaw
  · -- the first call
    have hkE : descSet (.child (.child (.child (.child k 0) 0) 1) c) ⊆ descSet k := descSet_child.trans (descSet_child.trans (descSet_child.trans descSet_child))
    obtain ⟨W, hW, hWm, hWl⟩ := exchScan_law h l data hL hp ![1, T] μ hμ 1 0 (Or.inl (by decide)) (.child (.child (.child (.child k 0) 0) 1) c) S (hS.mono_right hkE) X hX hlaw
    have e : Y 1 = fun ω => W ω 0 := by
      funext ω
      have h1 := hW ω
      have h2 := exchange_two (env ω).rng l data T (.child (.child (.child (.child k 0) 0) 1) c) (X ω 0) (X ω 1)
      have e2 : List.ofFn (X ω) = [X ω 0, X ω 1] := by simp [List.ofFn_succ]
      have e3 : List.ofFn (![1, T] : Fin 2 → ℝ) = [1, T] := by simp [List.ofFn_succ]
      rw [e2, e3] at h1
      have h3 : (exchange (env ω).rng l data [1, T] (.child (.child (.child (.child k 0) 0) 1) c) [X ω 0, X ω 1]).1.positions = List.ofFn (W ω) := h1
      rw [h3] at h2
      have h4 : (List.ofFn (W ω))[0]? = some (W ω 0) := by simp [List.ofFn_succ]
      rw [h4] at h2
      have h5 := Option.some.inj h2
      rw [h5]
      have hp1 : passed (swapRatio l data T) Z U 1 ω = decide (Real.log (U 0 ω) < swapRatio l data T (Z ω)) := rfl
      show (if passed (swapRatio l data T) Z U 1 ω = true then (Z ω).2 else (Z ω).1) = if Real.log (U 0 ω) < swapRatio l data T (Z ω) then (Z ω).2 else (Z ω).1
      rw [hp1]
      by_cases hh : Real.log (U 0 ω) < swapRatio l data T (Z ω)
      · simp [hh]
      · simp [hh]
    have a1 : P.map (Y 1) = (P.map W).map (fun w => w 0) := by
      rw [e, Measure.map_map (measurable_pi_apply 0) (hWm.mono (h.info_le _) le_rfl)]; rfl
    have a0 : P.map (Y 0) = (P.map X).map (fun w => w 0) := by
      rw [hY0, Measure.map_map (measurable_pi_apply 0) hXm]; rfl
    rw [a1, a0, hWl, hlaw]
  · -- later calls
    intro N hN a hva hvb
    let A : Set (Pos ℝ d) := {x | a ≤ l.base.logPdf.val x data}
    have hA : MeasurableSet A := measurableSet_le measurable_const hL
    let B : Set (Pos ℝ d × Pos ℝ d) := {p | p.1 ∈ A ∧ p.2 ∉ A}
    have hB : MeasurableSet B := (measurable_fst hA).inter (measurable_snd hA.compl)
    have hcoef : 1 / T - 1 < 0 := by
      have : 1 / T < 1 := by rw [div_lt_one (by linarith)]; exact hT1
      linarith
    have hneg : ∀ z ∈ B, swapRatio l data T z < 0 := by
      rintro z ⟨h1, h2⟩
      refine mul_neg_of_neg_of_pos hcoef (sub_pos.2 ?_)
      exact lt_of_lt_of_le (not_le.1 h2) h1
    have hposB : P {ω | Z ω ∈ B} ≠ 0 := by
      have e : {ω | Z ω ∈ B} = X ⁻¹' (Set.univ.pi ![A, Aᶜ]) := by
        ext ω; simp [Z, B, Set.mem_pi, Fin.forall_fin_two]
      have hm : MeasurableSet (Set.univ.pi (![A, Aᶜ] : Fin 2 → Set (Pos ℝ d))) := by
        refine MeasurableSet.univ_pi fun i => ?_
        fin_cases i
        · exact hA
        · exact hA.compl
      have hlaw' : P.map X = μ := hlaw
      obtain ⟨C, hC⟩ := hμ
      have hC0 : C ≠ 0 := by
        rintro rfl
        rw [zero_smul] at hC
        have : IsProbabilityMeasure μ := hlaw' ▸ Measure.isProbabilityMeasure_map hXm.aemeasurable
        rw [hC] at this
        exact IsProbabilityMeasure.ne_zero (0 : Measure (Fin 2 → Pos ℝ d)) rfl
      rw [e, ← Measure.map_apply hXm hm, hlaw', hC, jointTempered_eq l data hL hp, Measure.smul_apply, Measure.pi_pi, smul_eq_mul, Fin.prod_univ_two]
      have ht : ∀ t : ℝ, Measurable (fun x => (l.tempered t).val x data) := fun t => (hL.const_mul _).add hp
      refine mul_ne_zero hC0 (mul_ne_zero ?_ ?_)
      · exact targetMeasure_set_ne_zero _ (ht _) A hA hva
      · refine targetMeasure_set_ne_zero _ (ht _) Aᶜ hA.compl ?_
        have : Aᶜ = {x | l.base.logPdf.val x data < a} := by ext x; simp [A]
        rw [this]; exact hvb
    obtain ⟨-, hG⟩ := waits_then_passes hfresh hf hB hneg hposB N
    -- walkers leaving the region
    let G1 : Set Ω := {ω | (passed (swapRatio l data T) Z U N ω = false ∧ Z ω ∈ B) ∧ Real.log (U N ω) < swapRatio l data T (Z ω)}
    have hUm : ∀ j, Measurable (U j) := fun j => (hfresh.meas j).mono (hfresh.le _) le_rfl
    have hG1 : MeasurableSet G1 := by
      refine MeasurableSet.inter (MeasurableSet.inter ?_ (hZm hB)) (measurableSet_lt (Real.measurable_log.comp (hUm N)) (hf.comp hZm))
      have : {ω | passed (swapRatio l data T) Z U N ω = false} = {ω | passed (swapRatio l data T) Z U N ω = true}ᶜ := by ext ω; simp
      have h2 : MeasurableSet {ω | passed (swapRatio l data T) Z U N ω = false} := by rw [this]; exact (hpm N).compl
      exact h2
    have hsub : G1 ⊆ {ω | Y N ω ∈ A} := by
      rintro ω ⟨⟨h1, h2⟩, -⟩
      simp only [Y, Set.mem_setOf_eq, h1, Bool.false_eq_true, if_false]
      exact h2.1
    -- walkers entering it
    have hnull : ∀ᵐ ω ∂P, passed (swapRatio l data T) Z U N ω = false → ¬ ((Z ω).1 ∉ A ∧ (Z ω).2 ∈ A) := by
      have hu : ∀ᵐ u : ℝ ∂unif, u ∈ Set.Ico (0 : ℝ) 1 := ae_restrict_mem measurableSet_Ico
      have hu' : ∀ᵐ u ∂(P.map (U 0)), u ∈ Set.Ico (0 : ℝ) 1 := by
        have := hfresh.law 0
        rw [show P.map (U 0) = unif from this]; exact hu
      have hu2 := ae_of_ae_map (hUm 0).aemeasurable hu'
      filter_upwards [hu2] with ω hω hfalse ⟨hx, hr⟩
      have h0 : ∀ j, passed (swapRatio l data T) Z U (j + 1) ω = false → ¬ Real.log (U 0 ω) < swapRatio l data T (Z ω) := by
        intro j
        induction j with
        | zero => intro hj; simpa [passed] using hj
        | succ j ih =>
          intro hj
          simp only [passed, Bool.or_eq_false_iff] at hj
          exact ih (by simpa only [passed, Bool.or_eq_false_iff] using hj.1)
      obtain ⟨j, rfl⟩ : ∃ j, N = j + 1 := ⟨N - 1, by omega⟩
      refine h0 j hfalse (lt_of_le_of_lt (Real.log_nonpos hω.1 hω.2.le) ?_)
      exact mul_pos_of_neg_of_neg hcoef (sub_neg.2 (lt_of_lt_of_le (not_le.1 hx) hr))
    have hle : P {ω | Y (N + 1) ω ∈ A} ≤ P ({ω | Y N ω ∈ A} \ G1) := by
      refine measure_mono_ae ?_
      filter_upwards [hnull] with ω hω hin
      have hin' : Y (N + 1) ω ∈ A := hin
      show ω ∈ {ω | Y N ω ∈ A} \ G1
      by_cases hpN : passed (swapRatio l data T) Z U N ω = true
      · have e1 : Y (N + 1) ω = Y N ω := by simp [Y, passed, hpN]
        refine ⟨by rw [e1] at hin'; exact hin', fun hg => ?_⟩
        rw [hg.1.1] at hpN
        exact absurd hpN (by simp)
      · have hpF : passed (swapRatio l data T) Z U N ω = false := by simpa using hpN
        have e1 : Y N ω = (Z ω).1 := by simp [Y, hpF]
        by_cases hacc : Real.log (U N ω) < swapRatio l data T (Z ω)
        · have e2 : Y (N + 1) ω = (Z ω).2 := by simp [Y, passed, hacc]
          rw [e2] at hin'
          have hxA : (Z ω).1 ∈ A := by
            by_contra hx
            exact hω hpF ⟨hx, hin'⟩
          exact ⟨by show Y N ω ∈ A; rw [e1]; exact hxA, fun hg => hg.1.2.2 hin'⟩
        · have e2 : Y (N + 1) ω = (Z ω).1 := by simp [Y, passed, hacc, hpF]
          rw [e2] at hin'
          exact ⟨by show Y N ω ∈ A; rw [e1]; exact hin', fun hg => hacc hg.2⟩
    refine lt_of_le_of_lt hle ?_
    rw [measure_sdiff hsub hG1.nullMeasurableSet (measure_ne_top _ _)]
    refine ENNReal.sub_lt_self (measure_ne_top _ _) ?_ hG
    exact fun h0 => hG (measure_mono_null hsub h0)
  · -- the limit
    refine ⟨P.map (fun ω => X ω 1), ?_, ?_⟩
    · obtain ⟨C, hC⟩ := hμ
      have e : (fun ω => X ω 1) = Function.eval 1 ∘ X := rfl
      have hlaw' : P.map X = μ := hlaw
      rw [e, ← Measure.map_map (measurable_pi_apply 1) hXm, hlaw', hC, Measure.map_smul, jointTempered_eq l data hL hp, Measure.pi_map_eval, smul_smul]
      refine ⟨C * ∏ j ∈ Finset.univ.erase 1, (targetMeasure fun x => (l.tempered ((![1, T] : Fin 2 → ℝ) j)).val x data) Set.univ, ?_⟩
      congr 2
      funext x
      simp only [TemperedPDF.tempered, LogPDF.call, Matrix.cons_val_one, Matrix.cons_val_zero]
      ring
    · intro ε hε
      obtain ⟨N1, hN1⟩ := passes_eventually hfresh hf ε hε
      refine ⟨N1, fun n hn B hB => ?_⟩
      have hF := hN1 n hn
      have m1 : (P.map (Y n)).real B = P.real {ω | Y n ω ∈ B} := by rw [map_measureReal_apply (hYm n) hB]; rfl
      have m2 : (P.map (fun ω => X ω 1)).real B = P.real {ω | X ω 1 ∈ B} := by
        have hm1 : Measurable (fun ω => X ω 1) := (measurable_pi_apply 1).comp hXm
        rw [map_measureReal_apply hm1 hB]; rfl
      rw [m1, m2]
      have s1 : {ω | Y n ω ∈ B} ⊆ {ω | X ω 1 ∈ B} ∪ {ω | passed (swapRatio l data T) Z U n ω = false} := by
        intro ω hω
        by_cases hp2 : passed (swapRatio l data T) Z U n ω = true
        · left
          simpa [Y, hp2, Z] using hω
        · right; simpa using hp2
      have s2 : {ω | X ω 1 ∈ B} ⊆ {ω | Y n ω ∈ B} ∪ {ω | passed (swapRatio l data T) Z U n ω = false} := by
        intro ω hω
        by_cases hp2 : passed (swapRatio l data T) Z U n ω = true
        · left
          simpa [Y, hp2, Z] using hω
        · right; simpa using hp2
      have t1 := (measureReal_mono s1).trans (measureReal_union_le (μ := P) _ _)
      have t2 := (measureReal_mono s2).trans (measureReal_union_le (μ := P) _ _)
      rw [abs_le]
      constructor <;> linarith

/-- **C78 is false**: in the situation of `C78_cold_chain_drifts`, if the likelihood takes two values on sets of positive volume, the walker after the second call no longer has
the distribution of the cold replica. -/
theorem C78_not_kept [BufNum ℝ] (h : IdealDraws past sig P env) (strats : String → Option (Strategy ℝ D d M O)) (name : String) (s : ParallelTempering)
    (hname : strats name = some (.parallelTempering s)) (hs : s.nSteps = 0) (l : TemperedPDF ℝ D d) (data : Data D) (hL : Measurable (fun x => l.base.logPdf.val x data))
    (hp : Measurable (fun x => l.logPrior.val x data)) (T : ℝ) (hT1 : 1 < T) (μ : Measure (Fin 2 → Pos ℝ d)) (hμ : ∃ Z : ℝ≥0∞, μ = Z • jointTempered l data ![1, T])
    (k : Key) (S : Set (Option Key)) (hS : Disjoint S (descSet k)) (heap : Ω → Heap ℝ D d M O) (xs : Ω → List (Pos ℝ d)) (pname tname : String) (pb tb : Ω → Buffer ℝ)
    (K : Ω → LocalKernel ℝ D d) (v : SVal) (hv : v.truthy = false) (N0 : ℕ) (hlen : ∀ ω, (xs ω).length = N0)
    (site : ∀ ω, TemperSite s (heap ω) (env ω).rng (xs ω).length 1 pname tname (pb ω) (tb ω) (K ω) l v) (hT : ∀ ω, ladder (tb ω) 1 = [1, T]) (c : ℕ) (hc : c < N0)
    (hX : Measurable[info past sig S] (fun ω => replicasOf (xs ω) (pb ω) c 1)) (hlaw : P.map (fun ω => replicasOf (xs ω) (pb ω) c 1) = μ)
    (a : ℝ) (ha : volume {x : Pos ℝ d | a ≤ l.base.logPdf.val x data} ≠ 0) (hb : volume {x : Pos ℝ d | l.base.logPdf.val x data < a} ≠ 0) :
    ∃ Y : Ω → Pos ℝ d, Measurable Y ∧
      (∀ ω, ∃ k' ys, Completes (env ω) strats data [name, name] ⟨k, xs ω, heap ω⟩ ⟨k', ys, heap ω⟩ ∧ ys[c]? = some (Y ω)) ∧ P.map Y ≠ P.map (fun ω => replicasOf (xs ω) (pb ω) c 1 0) := by
  obtain ⟨Y, h1, h2, -, h4, h5, -⟩ := C78_cold_chain_drifts h strats name s hname hs l data hL hp T hT1 μ hμ k S hS heap xs pname tname pb tb K v hv N0 hlen site hT c hc hX hlaw
  refine ⟨Y 2, h2 2, fun ω => h1 2 ω, fun he => ?_⟩
  have hA : MeasurableSet {x : Pos ℝ d | a ≤ l.base.logPdf.val x data} := measurableSet_le measurable_const hL
  have e0 : (fun ω => replicasOf (xs ω) (pb ω) c 1 0) = Y 0 := by
    funext ω
    obtain ⟨k', ys, hc0, hy⟩ := h1 0 ω
    cases hc0
    simp [replicasOf, List.getD_eq_getElem?_getD, hy]
  rw [e0, ← h4] at he
  have := h5 1 le_rfl a ha hb
  have e1 : P {ω | a ≤ l.base.logPdf.val (Y 1 ω) data} = P.map (Y 1) {x | a ≤ l.base.logPdf.val x data} := (Measure.map_apply (h2 1) hA).symm
  have e2 : P {ω | a ≤ l.base.logPdf.val (Y (1 + 1) ω) data} = P.map (Y 2) {x | a ≤ l.base.logPdf.val x data} := (Measure.map_apply (h2 2) hA).symm
  rw [e1, e2, he] at this
  exact lt_irrefl _ this

/-- **C78, what holds.** The first tempering call after training (any number of local moves, any ladder starting with temperature 1) hands on walkers with the distribution
likelihood times prior, when the replicas have the joint tempered distribution before it.  Missing: all later calls (`C78_not_kept`). -/
theorem C78_first_call_partial [BufNum ℝ] (h : IdealDraws past sig P env) (s : ParallelTempering) (kr : KernelRes ℝ d M) (hk : ExactSettings kr) (K : Ω → LocalKernel ℝ D d)
    (hK : ∀ ω, kr.local? (env ω).rng = some (K ω)) (l : TemperedPDF ℝ D d) (data : Data D) (hL : Measurable (fun x => l.base.logPdf.val x data))
    (hp : Measurable (fun x => l.logPrior.val x data)) (hgL : Measurable (fun x => l.base.logPdf.grad x data)) (hgp : Measurable (fun x => l.logPrior.grad x data))
    (m N : ℕ) (T : Fin (m + 1) → ℝ) (hT0 : T 0 = 1) (μ : Measure (Fin (m + 1) → Pos ℝ d)) (hμ : ∃ Z : ℝ≥0∞, μ = Z • jointTempered l data T)
    (k : Key) (S : Set (Option Key)) (hS : Disjoint S (descSet k)) (heap : Ω → Heap ℝ D d M O) (xs : Ω → List (Pos ℝ d)) (pname tname : String)
    (pb tb : Ω → Buffer ℝ) (v : SVal) (hv : v.truthy = false) (hlen : ∀ ω, (xs ω).length = N)
    (site : ∀ ω, TemperSite s (heap ω) (env ω).rng (xs ω).length m pname tname (pb ω) (tb ω) (K ω) l v)
    (hT : ∀ ω, ladder (tb ω) m = List.ofFn T) (c : ℕ) (hc : c < N)
    (hX : Measurable[info past sig S] (fun ω => replicasOf (xs ω) (pb ω) c m)) (hlaw : P.map (fun ω => replicasOf (xs ω) (pb ω) c m) = μ) :
    ∃ Y : Ω → Pos ℝ d, (∀ ω, ∃ k' ys, s.run (env ω) k (xs ω) data (heap ω) = (.ok (k', ys), heap ω) ∧ ys[c]? = some (Y ω)) ∧
      SamplesFrom (P.map Y) (fun x => l.base.logPdf.val x data + l.logPrior.val x data) := by
  obtain ⟨Y, h1, h2, h3⟩ := C32_call h s kr hk K hK l data hL hp hgL hgp m N T μ hμ k S hS heap xs pname tname pb tb v hlen site hT c hc hX hlaw
  refine ⟨fun ω => Y ω 0, fun ω => ?_, C32_cold_chain l data hL hp T hT0 μ hμ Y (h1.mono (h.info_le _) le_rfl) h2⟩
  obtain ⟨ys, h', hr, hy, -, hh⟩ := h3 ω
  rw [hh hv] at hr
  exact ⟨_, ys, hr, hy⟩

end FlowMC
