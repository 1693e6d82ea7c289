import Verif.Props.Exchange
import Verif.Props.Chains
/-
C32: a parallel tempering call leaves the joint tempered distribution of every chain invariant.
-/
open MeasureTheory ProbabilityTheory
open scoped ENNReal
set_option linter.unusedSectionVars false
namespace FlowMC
open Spec

variable {Ω D M O : Type} {d n : ℕ}

instance {Y : Type} [MeasureSpace Y] [SigmaFinite (volume : Measure Y)] (h : Y → ℝ) : SigmaFinite (targetMeasure h) := by unfold targetMeasure; infer_instance

theorem jointTempered_eq (l : TemperedPDF ℝ D d) (data : Data D) (hL : Measurable (fun x => l.base.logPdf.val x data)) (hp : Measurable (fun x => l.logPrior.val x data))
    (T : Fin n → ℝ) : jointTempered l data T = Measure.pi (fun i => targetMeasure (fun x => (l.tempered (T i)).val x data)) := by
  have hm : ∀ i, Measurable (fun x => (l.tempered (T i)).val x data) := fun i => (hL.const_mul _).add hp
  unfold targetMeasure
  have hm' : ∀ i, Measurable (fun x => ENNReal.ofReal (Real.exp ((l.tempered (T i)).val x data))) := fun i =>
    ENNReal.measurable_ofReal.comp (Real.measurable_exp.comp (hm i))
  rw [pi_withDensity' _ hm' (fun i => by infer_instance), jointTempered, targetMeasure]
  congr 1
  funext xs
  rw [← ENNReal.ofReal_prod_of_nonneg (fun i _ => (Real.exp_pos _).le), ← Real.exp_sum]
  congr 2
  refine Finset.sum_congr rfl fun i _ => ?_
  simp only [TemperedPDF.tempered, LogPDF.call]
  ring

/-- A move of one coordinate that keeps the law of the coordinate keeps the product law. -/
theorem coord_invariant {X N : Type} [MeasurableSpace X] [MeasurableSpace N] (π : Fin n → Measure X) [∀ i, SigmaFinite (π i)] (ν : Measure N) [IsProbabilityMeasure ν]
    (i : Fin n) (step : N → X → X) (hm : Measurable (fun p : X × N => step p.2 p.1)) (hinv : Invariant (π i) ν step) :
    Measurable (fun p : (Fin n → X) × N => Function.update p.1 i (step p.2 (p.1 i))) ∧
    Invariant (Measure.pi π) ν (fun z xs => Function.update xs i (step z (xs i))) := by
  have hmeas : Measurable (fun p : (Fin n → X) × N => Function.update p.1 i (step p.2 (p.1 i))) := by
    refine measurable_pi_lambda _ fun j => ?_
    by_cases hj : j = i
    · subst hj
      simp only [Function.update_self]
      have h2 : Measurable (fun p : (Fin n → X) × N => (p.1 j, p.2)) := ((measurable_pi_apply j).comp measurable_fst).prodMk measurable_snd
      exact hm.comp h2
    · simp only [Function.update_of_ne hj]
      exact (measurable_pi_apply j).comp measurable_fst
  refine ⟨hmeas, ?_⟩
  have hA := measurePreserving_arrowProdEquivProdArrow X N (Fin n) π (fun _ => ν)
  have hev : MeasurePreserving (fun w : Fin n → N => w i) (Measure.pi (fun _ => ν)) ν := measurePreserving_eval _ i
  have hpr : MeasurePreserving (Prod.map id (fun w : Fin n → N => w i)) ((Measure.pi π).prod (Measure.pi (fun _ => ν))) ((Measure.pi π).prod ν) :=
    (MeasurePreserving.id _).prod hev
  have hc := hpr.comp hA
  let f : (j : Fin n) → X × N → X := fun j p => if j = i then step p.2 p.1 else p.1
  have hf : ∀ j, MeasurePreserving (f j) ((π j).prod ν) (π j) := by
    intro j
    by_cases hj : j = i
    · subst hj
      simp only [f, if_true]
      exact ⟨hm, hinv⟩
    · simp only [f, if_neg hj]
      refine ⟨measurable_fst, ?_⟩
      rw [Measure.map_fst_prod]; simp
  have hpi := measurePreserving_pi _ _ hf
  unfold Invariant
  rw [← hc.map_eq, Measure.map_map hmeas hc.measurable]
  refine Eq.trans ?_ hpi.map_eq
  congr 1
  funext a j
  by_cases hj : j = i
  · subst hj
    simp only [Function.comp, Function.update_self, f, if_true]
    rfl
  · simp only [Function.comp, Function.update_of_ne hj, f, if_neg hj]
    rfl

variable {past : MeasurableSpace Ω} {sig : Key → MeasurableSpace Ω} [mΩ : MeasurableSpace Ω] {P : Measure Ω} [IsProbabilityMeasure P] {env : Ω → Env ℝ D d M O}

/-- `j` kernel steps of replica `i`. -/
theorem coord_law (h : IdealDraws past sig P env) (kr : KernelRes ℝ d M) (hk : ExactSettings kr) (K : Ω → LocalKernel ℝ D d)
    (hK : ∀ ω, kr.local? (env ω).rng = some (K ω)) (t : Fin n → Target ℝ D d) (data : Data D) (ht : ∀ i, Measurable (fun x => (t i).val x data))
    (hg : ∀ i, Measurable (fun x => (t i).grad x data)) (μ : Measure (Fin n → Pos ℝ d))
    (hμ : ∃ Z : ℝ≥0∞, μ = Z • Measure.pi (fun i => targetMeasure (fun x => (t i).val x data))) (i : Fin n) (j : ℕ) (k : Key) (S : Set (Option Key))
    (hS : Disjoint S (descSet k)) (X : Ω → Fin n → Pos ℝ d) (hX : Measurable[info past sig S] X) (hlaw : P.map X = μ) :
    P.map (fun ω => Function.update (X ω) i (iterState (localBody (K ω) (t i) data) j (k, X ω i, (t i).val (X ω i) data)).2.1) = μ ∧
    Measurable[info past sig (S ∪ descSet k)]
      (fun ω => Function.update (X ω) i (iterState (localBody (K ω) (t i) data) j (k, X ω i, (t i).val (X ω i) data)).2.1) := by
  obtain ⟨step, hsm, hinv, hstep⟩ := kernel_step kr hk (t i) data (ht i) (hg i)
  obtain ⟨hum, huinv⟩ := coord_invariant (fun i => targetMeasure (fun x => (t i).val x data)) (noise d) i step hsm hinv
  have hinv' : Invariant μ (noise d) (fun z xs => Function.update xs i (step z (xs i))) := by
    obtain ⟨Z, rfl⟩ := hμ
    exact huinv.smul Z
  induction j generalizing k S X with
  | zero => simpa [iterState] using ⟨hlaw, hX.mono (info_mono Set.subset_union_left) le_rfl⟩
  | succ j ih =>
    obtain ⟨nm, nl⟩ := noise_law h (.child k 1) (fun _ _ => trivial)
    have hd : Disjoint S (descSet (.child k 1)) := hS.mono_right descSet_child
    let Z : Ω → (Fin d → ℝ) × ℝ := fun ω => ((env ω).rng.normal (.child (.child k 1) 0) d, (env ω).rng.uniform (.child (.child k 1) 1))
    have hbody : ∀ ω, (localBody (K ω) (t i) data (k, X ω i, (t i).val (X ω i) data)).1 =
        (.child k 0, step (Z ω) (X ω i), (t i).val (step (Z ω) (X ω i)) data) := by
      intro ω
      have := hstep (env ω).rng (K ω) (hK ω) (.child k 1) (X ω i)
      simp only [localBody, split, this.1, this.2, Z]
    have hX' : Measurable[info past sig (S ∪ descSet (.child k 1))] (fun ω => Function.update (X ω) i (step (Z ω) (X ω i))) :=
      hum.comp ((hX.mono (info_mono Set.subset_union_left) le_rfl).prodMk (nm.mono (info_mono Set.subset_union_right) le_rfl))
    have := ih (.child k 0) (S ∪ descSet (.child k 1)) ?_ _ hX' (h.step hd hX nm hlaw nl hum hinv')
    · simp only [Function.update_idem, Function.update_self] at this
      simp only [iterState, hbody]
      refine ⟨this.1, this.2.mono (info_mono ?_) le_rfl⟩
      exact Set.union_subset (Set.union_subset Set.subset_union_left (descSet_child.trans Set.subset_union_right)) (descSet_child.trans Set.subset_union_right)
    · exact Set.disjoint_union_left.2 ⟨hS.mono_right descSet_child, descSet_disjoint (by decide)⟩

/-- The local moves of all replicas. -/
theorem ensemble_law (h : IdealDraws past sig P env) (kr : KernelRes ℝ d M) (hk : ExactSettings kr) (K : Ω → LocalKernel ℝ D d)
    (hK : ∀ ω, kr.local? (env ω).rng = some (K ω)) (l : TemperedPDF ℝ D d) (data : Data D) (hL : Measurable (fun x => l.base.logPdf.val x data))
    (hp : Measurable (fun x => l.logPrior.val x data)) (hgL : Measurable (fun x => l.base.logPdf.grad x data)) (hgp : Measurable (fun x => l.logPrior.grad x data))
    (T : Fin n → ℝ) (μ : Measure (Fin n → Pos ℝ d)) (hμ : ∃ Z : ℝ≥0∞, μ = Z • jointTempered l data T) (steps : ℕ) (k : Key) (S : Set (Option Key))
    (hS : Disjoint S (descSet k)) (X : Ω → Fin n → Pos ℝ d) (hX : Measurable[info past sig S] X) (hlaw : P.map X = μ) :
    ∃ Y : Ω → Fin n → Pos ℝ d, (∀ ω, ensembleStep (K ω) l data steps k (List.ofFn (X ω)) (List.ofFn T) = List.ofFn (Y ω)) ∧
      Measurable[info past sig (S ∪ descSet k)] Y ∧ P.map Y = μ := by
  rw [jointTempered_eq l data hL hp T] at hμ
  have ht : ∀ i, Measurable (fun x => (l.tempered (T i)).val x data) := fun i => (hL.const_mul _).add hp
  have hg : ∀ i, Measurable (fun x => (l.tempered (T i)).grad x data) := fun i => by
    refine measurable_pi_lambda _ fun c => ?_
    exact (((measurable_pi_apply c).comp hgL).const_mul _).add ((measurable_pi_apply c).comp hgp)
  -- the first `m` replicas moved
  let Y : ℕ → Ω → Fin n → Pos ℝ d := fun m ω i =>
    if i.val < m then individualStep (K ω) l data steps (.child k i) (X ω i) (T i) else X ω i
  have main : ∀ m, m ≤ n → P.map (Y m) = μ ∧ ∃ S', S' ⊆ S ∪ descSet k ∧ (∀ j, m ≤ j → Disjoint S' (descSet (.child k j))) ∧ Measurable[info past sig S'] (Y m) := by
    intro m
    induction m with
    | zero =>
      intro _
      have : Y 0 = X := by funext ω i; simp [Y]
      rw [this]
      exact ⟨hlaw, S, Set.subset_union_left, fun j _ => hS.mono_right descSet_child, hX⟩
    | succ m ih =>
      intro hm
      obtain ⟨h1, S', hS', hd, hYm⟩ := ih (by omega)
      have := coord_law h kr hk K hK (fun i => l.tempered (T i)) data ht hg μ hμ ⟨m, hm⟩ steps (.child k m) S' (hd m le_rfl) (Y m) hYm h1
      have e : (fun ω => Function.update (Y m ω) ⟨m, hm⟩ (iterState (localBody (K ω) (l.tempered (T ⟨m, hm⟩)) data) steps
          (.child k m, Y m ω ⟨m, hm⟩, (l.tempered (T ⟨m, hm⟩)).val (Y m ω ⟨m, hm⟩) data)).2.1) = Y (m + 1) := by
        funext ω i
        by_cases hi : i = ⟨m, hm⟩
        · subst hi
          simp [Y, individualStep, scanN_fst]
        · have : i.val ≠ m := fun hh => hi (Fin.ext hh)
          rw [Function.update_of_ne hi]
          simp only [Y]
          by_cases h2 : i.val < m
          · rw [if_pos h2, if_pos (by omega)]
          · rw [if_neg h2, if_neg (by omega)]
      rw [e] at this
      refine ⟨this.1, S' ∪ descSet (.child k m), Set.union_subset hS' (descSet_child.trans Set.subset_union_right), fun j hj => ?_, this.2⟩
      exact Set.disjoint_union_left.2 ⟨hd j (by omega), descSet_disjoint (by omega)⟩
  obtain ⟨h1, S', hS', -, hYm⟩ := main n le_rfl
  refine ⟨Y n, fun ω => ?_, hYm.mono (info_mono hS') le_rfl, h1⟩
  have hz : (List.ofFn (X ω)).zip (List.ofFn T) = List.ofFn (fun i => (X ω i, T i)) := by
    apply List.ext_getElem <;> simp
  unfold ensembleStep
  rw [hz, List.length_ofFn, zip_splitN_map _ _ _ _ (by simp)]
  apply List.ext_getElem
  · simp
  · intro i h1 h2
    simp only [List.length_ofFn] at h2
    simp [Y, h2]

/-- **C32, one chain.** Replicas with the joint tempered distribution keep it through `steps` local moves at every temperature followed by an exchange sweep. -/
theorem C32_chain (h : IdealDraws past sig P env) (kr : KernelRes ℝ d M) (hk : ExactSettings kr) (K : Ω → LocalKernel ℝ D d)
    (hK : ∀ ω, kr.local? (env ω).rng = some (K ω)) (l : TemperedPDF ℝ D d) (data : Data D) (hL : Measurable (fun x => l.base.logPdf.val x data))
    (hp : Measurable (fun x => l.logPrior.val x data)) (hgL : Measurable (fun x => l.base.logPdf.grad x data)) (hgp : Measurable (fun x => l.logPrior.grad x data))
    (T : Fin n → ℝ) (μ : Measure (Fin n → Pos ℝ d)) (hμ : ∃ Z : ℝ≥0∞, μ = Z • jointTempered l data T) (steps : ℕ) (k k' : Key) (S : Set (Option Key))
    (hS : Disjoint S (descSet k)) (hS' : Disjoint S (descSet k')) (hkk : Disjoint (descSet k) (descSet k')) (X : Ω → Fin n → Pos ℝ d)
    (hX : Measurable[info past sig S] X) (hlaw : P.map X = μ) :
    ∃ Y : Ω → Fin n → Pos ℝ d,
      (∀ ω, (exchange (env ω).rng l data (List.ofFn T) k' (ensembleStep (K ω) l data steps k (List.ofFn (X ω)) (List.ofFn T))).1.positions = List.ofFn (Y ω)) ∧
      Measurable[info past sig (S ∪ descSet k ∪ descSet k')] Y ∧ P.map Y = μ := by
  obtain ⟨Y, hY, hYm, hYl⟩ := ensemble_law h kr hk K hK l data hL hp hgL hgp T μ hμ steps k S hS X hX hlaw
  obtain ⟨W, hW, hWm, hWl⟩ := exchScan_law h l data hL hp T μ hμ (n - 1) 0 (by omega) k' (S ∪ descSet k) (Set.disjoint_union_left.2 ⟨hS', hkk⟩) Y hYm hYl
  refine ⟨W, fun ω => ?_, hWm, hWl⟩
  rw [hY]
  simp only [exchange, List.length_ofFn]
  exact hW ω

/-- The replicas of chain `c`: the walker itself, then the rows of the replica buffer. -/
def Spec.replicasOf (xs : List (Pos ℝ d)) (pb : Buffer ℝ) (c m : ℕ) : Fin (m + 1) → Pos ℝ d :=
  fun j => if j.val = 0 then xs.getD c (fun _ => 0) else row3 pb.data c (j.val - 1)

theorem replicasOf_list (xs : List (Pos ℝ d)) (pb : Buffer ℝ) (c m : ℕ) (x : Pos ℝ d) (hx : xs[c]? = some x) :
    x :: (List.range m).map (fun j => (row3 pb.data c j : Pos ℝ d)) = List.ofFn (replicasOf xs pb c m) := by
  rw [List.ofFn_succ]
  congr 1
  · simp [replicasOf, List.getD_eq_getElem?_getD, hx]
  · apply List.ext_getElem
    · simp
    · intro i h1 h2
      simp [replicasOf]

/-- **C32, the strategy call.** For a fixed ladder `T`: if the replicas of chain `c` (the walker passed in and the stored hotter ones) jointly have the tempered
distribution and are known before the call's draws, then after the call the returned walker together with the other replicas of the chain has it again.  When the
`training` entry is truthy these other replicas are the ones stored in the buffer; otherwise the stored replicas do not change. -/
theorem C32_call [BufNum ℝ] (h : IdealDraws past sig P env) (s : ParallelTempering) (kr : KernelRes ℝ d M) (hk : ExactSettings kr) (K : Ω → LocalKernel ℝ D d)
    (hK : ∀ ω, kr.local? (env ω).rng = some (K ω)) (l : TemperedPDF ℝ D d) (data : Data D) (hL : Measurable (fun x => l.base.logPdf.val x data))
    (hp : Measurable (fun x => l.logPrior.val x data)) (hgL : Measurable (fun x => l.base.logPdf.grad x data)) (hgp : Measurable (fun x => l.logPrior.grad x data))
    (m N : ℕ) (T : Fin (m + 1) → ℝ) (μ : Measure (Fin (m + 1) → Pos ℝ d)) (hμ : ∃ Z : ℝ≥0∞, μ = Z • jointTempered l data T)
    (k : Key) (S : Set (Option Key)) (hS : Disjoint S (descSet k)) (heap : Ω → Heap ℝ D d M O) (xs : Ω → List (Pos ℝ d)) (pname tname : String)
    (pb tb : Ω → Buffer ℝ) (v : SVal) (hlen : ∀ ω, (xs ω).length = N)
    (site : ∀ ω, TemperSite s (heap ω) (env ω).rng (xs ω).length m pname tname (pb ω) (tb ω) (K ω) l v)
    (hT : ∀ ω, ladder (tb ω) m = List.ofFn T) (c : ℕ) (hc : c < N)
    (hX : Measurable[info past sig S] (fun ω => replicasOf (xs ω) (pb ω) c m)) (hlaw : P.map (fun ω => replicasOf (xs ω) (pb ω) c m) = μ) :
    ∃ Y : Ω → Fin (m + 1) → Pos ℝ d, Measurable[info past sig (S ∪ descSet k)] Y ∧ P.map Y = μ ∧
      ∀ ω, ∃ ys h', s.run (env ω) k (xs ω) data (heap ω) = (.ok (.child (.child (.child k 0) 0) 0, ys), h') ∧ ys[c]? = some (Y ω 0) ∧
        (v.truthy = true → ∃ pb', h'.res pname = some (.buffer pb') ∧ replicasOf ys pb' c m = Y ω) ∧ (v.truthy = false → h' = heap ω) := by
  let kM := Key.child (Key.child (Key.child k 0) 1) c
  let kE := Key.child (Key.child (Key.child (Key.child k 0) 0) 1) c
  have sM : descSet kM ⊆ descSet (.child (.child k 0) 1) := descSet_child
  have sE : descSet kE ⊆ descSet (.child (.child k 0) 0) := descSet_child.trans descSet_child
  have s0 : ∀ i, descSet (.child (.child k 0) i) ⊆ descSet k := fun i => descSet_child.trans descSet_child
  obtain ⟨Y, hY, hYm, hYl⟩ := C32_chain h kr hk K hK l data hL hp hgL hgp T μ hμ s.nSteps kM kE S (hS.mono_right (sM.trans (s0 1))) (hS.mono_right (sE.trans (s0 0)))
    ((descSet_disjoint (by decide)).mono sM sE) _ hX hlaw
  refine ⟨Y, hYm.mono (info_mono ?_) le_rfl, hYl, fun ω => ?_⟩
  · exact Set.union_subset (Set.union_subset Set.subset_union_left ((sM.trans (s0 1)).trans Set.subset_union_right)) ((sE.trans (s0 0)).trans Set.subset_union_right)
  have hcω : c < (xs ω).length := by rw [hlen]; exact hc
  -- the walkers of chain `c` after the call
  have hw : ∃ e, (temperedWalkers (env ω).rng s k (xs ω) data m (pb ω) (tb ω) (K ω) l)[c]? = some e ∧ e.1.positions = List.ofFn (Y ω) := by
    refine ⟨_, ?_, hY ω⟩
    rw [← replicasOf_list (xs ω) (pb ω) c m _ (List.getElem?_eq_getElem hcω), ← hT ω]
    simp only [temperedWalkers, List.getElem?_map, List.getElem?_zipIdx, List.getElem?_eq_getElem hcω, Option.map_some, Nat.zero_add]
    rfl
  obtain ⟨e, he, hpos⟩ := hw
  have hys : ((temperedWalkers (env ω).rng s k (xs ω) data m (pb ω) (tb ω) (K ω) l).filterMap (fun e => e.1.positions.head?))[c]? = some (Y ω 0) := by
    have hall := (temperedWalkers_length (env ω).rng s k (xs ω) data m (pb ω) (tb ω) (K ω) l).2
    have : ∀ ws : List (ExchCarry ℝ d × List Bool), (∀ e ∈ ws, e.1.positions.length = m + 1) →
        ws.filterMap (fun e => e.1.positions.head?) = ws.map (fun e => e.1.positions.getD 0 (fun _ => 0)) := by
      intro ws
      induction ws with
      | nil => intro _; rfl
      | cons w ws ih =>
        intro hh
        have hw := hh w (by simp)
        have ih' := ih fun e he => hh e (by simp [he])
        match hp : w.1.positions with
        | [] => simp [hp] at hw
        | a :: as => simp [List.filterMap_cons, hp, ih']
    rw [this _ hall, List.getElem?_map, he, Option.map_some, hpos]
    simp [List.ofFn_succ]
  cases hv : v.truthy with
  | false =>
    refine ⟨_, _, C35_frozen (env ω) s k (xs ω) data (heap ω) m pname tname (pb ω) (tb ω) (K ω) l v (site ω) hv, hys, by simp, fun _ => rfl⟩
  | true =>
    obtain ⟨h', pb', tb', hrun, -, -, hP, -, -, -, -, hrow, -⟩ := C35_training (env ω) s k (xs ω) data (heap ω) m pname tname (pb ω) (tb ω) (K ω) l v (site ω) hv
    refine ⟨_, h', hrun, hys, fun _ => ⟨pb', hP, ?_⟩, by simp⟩
    funext j
    by_cases hj : j.val = 0
    · have : j = 0 := Fin.ext hj
      subst this
      simp [replicasOf, List.getD_eq_getElem?_getD, hys]
    · funext a
      simp only [replicasOf, if_neg hj, row3]
      refine hrow c (j.val - 1) e (Y ω j) he ?_ a
      rw [hpos, show j.val - 1 + 1 = j.val by omega, List.getElem?_ofFn, dif_pos j.isLt]

/-- Independent replicas, each with the distribution of its temperature, have the joint tempered distribution. -/
theorem jointTempered_of_independent (l : TemperedPDF ℝ D d) (data : Data D) (hL : Measurable (fun x => l.base.logPdf.val x data))
    (hp : Measurable (fun x => l.logPrior.val x data)) (T : Fin n → ℝ) (μ : Fin n → Measure (Pos ℝ d)) [∀ i, IsProbabilityMeasure (μ i)]
    (hμ : ∀ i, SamplesFrom (μ i) (fun x => (l.tempered (T i)).val x data)) : ∃ Z : ℝ≥0∞, Measure.pi μ = Z • jointTempered l data T := by
  choose Z hZ using hμ
  refine ⟨∏ i, Z i, ?_⟩
  refine Measure.pi_eq fun s _ => ?_
  rw [jointTempered_eq l data hL hp, Measure.smul_apply, Measure.pi_pi, smul_eq_mul, ← Finset.prod_mul_distrib]
  refine Finset.prod_congr rfl fun i _ => ?_
  conv_rhs => rw [hZ i]
  rfl

/-- **C32, the cold chain.** If the joint law of the replicas is the tempered one and the first temperature is `1`, the first replica is distributed as
likelihood times prior. -/
theorem C32_cold_chain (l : TemperedPDF ℝ D d) (data : Data D) (hL : Measurable (fun x => l.base.logPdf.val x data)) (hp : Measurable (fun x => l.logPrior.val x data))
    {m : ℕ} (T : Fin (m + 1) → ℝ) (hT : T 0 = 1) (μ : Measure (Fin (m + 1) → Pos ℝ d)) (hμ : ∃ Z : ℝ≥0∞, μ = Z • jointTempered l data T)
    (Y : Ω → Fin (m + 1) → Pos ℝ d) (hY : Measurable Y) (hlaw : P.map Y = μ) :
    SamplesFrom (P.map (fun ω => Y ω 0)) (fun x => l.base.logPdf.val x data + l.logPrior.val x data) := by
  obtain ⟨Z, rfl⟩ := hμ
  have e : (fun ω => Y ω 0) = Function.eval 0 ∘ Y := rfl
  rw [e, ← Measure.map_map (measurable_pi_apply 0) hY, hlaw, Measure.map_smul, jointTempered_eq l data hL hp, Measure.pi_map_eval, smul_smul]
  refine ⟨Z * ∏ j ∈ Finset.univ.erase 0, (targetMeasure fun x => (l.tempered (T j)).val x data) Set.univ, ?_⟩
  congr 2
  funext x
  simp [TemperedPDF.tempered, hT, LogPDF.call]

end FlowMC
