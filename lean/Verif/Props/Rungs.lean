import Verif.Spec.Rungs
import Verif.Props.Extend
import Verif.Props.Metropolis
/-
C117: how far a walker can move between the temperatures in one tempering call, and what the chains can therefore see of the replicas.
-/
set_option linter.unusedSectionVars false
namespace FlowMC
open Spec

variable {F D M O : Type} {d : ℕ}

theorem swapAt_get {α : Type} (i : ℕ) (xs : List α) (h : i + 1 < xs.length) (j : ℕ) :
    (swapAt i xs)[j]? = if j = i then xs[i + 1]? else if j = i + 1 then xs[i]? else xs[j]? := by
  unfold swapAt
  rw [List.getElem?_eq_getElem h, List.getElem?_eq_getElem (show i < xs.length by omega)]
  simp only [List.getElem?_set, List.length_set]
  by_cases h1 : j = i
  · subst h1; simp; omega
  · by_cases h2 : j = i + 1
    · subst h2; simp [h]
    · have a : ¬ i + 1 = j := by omega
      have b : ¬ i = j := by omega
      simp [h1, h2, a, b]

theorem swapAt_short {α : Type} (i : ℕ) (xs : List α) (h : ¬ i + 1 < xs.length) : swapAt i xs = xs := by
  unfold swapAt
  rw [List.getElem?_eq_none (show xs.length ≤ i + 1 by omega)]
  split <;> simp_all

theorem swapAt_below {α : Type} (i : ℕ) (xs : List α) {j : ℕ} (hj : j < i) : (swapAt i xs)[j]? = xs[j]? := by
  by_cases h : i + 1 < xs.length
  · rw [swapAt_get i xs h, if_neg (by omega), if_neg (by omega)]
  · rw [swapAt_short i xs h]

theorem swapAt_sameUpTo {α : Type} {i r : ℕ} {xs ys : List α} (hi : i ≤ r) (h : SameUpTo (r + 1) xs ys) : SameUpTo (r + 1) (swapAt i xs) (swapAt i ys) := by
  intro j hj
  have e1 := h i (by omega)
  have e2 := h (i + 1) (by omega)
  by_cases hx : i + 1 < xs.length
  · have hy : i + 1 < ys.length := by
      rw [List.getElem?_eq_getElem hx] at e2
      exact (List.getElem?_eq_some_iff.1 e2.symm).1
    rw [swapAt_get i xs hx, swapAt_get i ys hy, e1, e2, h j hj]
  · have hy : ¬ i + 1 < ys.length := by
      intro hy
      rw [List.getElem?_eq_getElem hy] at e2
      exact hx (List.getElem?_eq_some_iff.1 e2).1
    rw [swapAt_short i xs hx, swapAt_short i ys hy, h j hj]

theorem Spec.SameUpTo.getD {α : Type} {r : ℕ} {xs ys : List α} (h : SameUpTo r xs ys) {j : ℕ} (hj : j ≤ r) (a : α) : xs.getD j a = ys.getD j a := by
  simp only [List.getD_eq_getElem?_getD, h j hj]

section
variable [Zero F] [One F] [Div F] [Sub F] [Mul F] [Transc F] [FCmp F]

/-- What the sweep has passed it does not touch again. -/
theorem exchScan_below (rng : Rng F) (Ts : List F) (n i : ℕ) (k : Key) (c : ExchCarry F d) {j : ℕ} (hj : j < i) :
    (exchScan rng Ts n i k c).1.positions[j]? = c.positions[j]? := by
  induction n generalizing i k c with
  | zero => rfl
  | succ n ih =>
    simp only [exchScan]
    rw [ih (i + 1) _ _ (by omega)]
    simp only [exchBody]
    split
    · exact swapAt_below i _ hj
    · rfl

theorem exchScan_sameUpTo (rng : Rng F) (Ts Ts' : List F) (r : ℕ) (hT : SameUpTo (r + 1) Ts Ts') (n i : ℕ) (k : Key) (c c' : ExchCarry F d)
    (hp : SameUpTo (r + 1) c.positions c'.positions) (hl : SameUpTo (r + 1) c.logps c'.logps) :
    SameUpTo r (exchScan rng Ts n i k c).1.positions (exchScan rng Ts' n i k c').1.positions := by
  by_cases hi : r < i
  · intro j hj
    rw [exchScan_below rng Ts n i k c (by omega), exchScan_below rng Ts' n i k c' (by omega), hp j (by omega)]
  induction n generalizing i k c c' with
  | zero => exact fun j hj => hp j (by omega)
  | succ n ih =>
    have er : exchRatio Ts c.logps i = exchRatio Ts' c'.logps i := by
      unfold exchRatio
      rw [hT.getD (j := i + 1) (by omega), hT.getD (j := i) (by omega), hl.getD (j := i) (by omega), hl.getD (j := i + 1) (by omega)]
    simp only [exchScan, exchBody, er]
    have hp' : ∀ b : Bool, SameUpTo (r + 1) (if b = true then swapAt i c.positions else c.positions) (if b = true then swapAt i c'.positions else c'.positions) := by
      intro b; cases b
      · exact hp
      · exact swapAt_sameUpTo (by omega) hp
    have hl' : ∀ b : Bool, SameUpTo (r + 1) (if b = true then swapAt i c.logps else c.logps) (if b = true then swapAt i c'.logps else c'.logps) := by
      intro b; cases b
      · exact hl
      · exact swapAt_sameUpTo (by omega) hl
    by_cases hi' : r < i + 1
    · intro j hj
      rw [exchScan_below _ _ _ _ _ _ (by omega), exchScan_below _ _ _ _ _ _ (by omega)]
      exact hp' _ j (by omega)
    · exact ih (i + 1) _ _ _ (hp' _) (hl' _) hi'

/-- **C117 (what a sweep sees).** Whatever the draws and the log-likelihoods (NaN included): who ends an exchange sweep at the temperatures `0, …, r` depends only on the walkers and on the temperatures at
`0, …, r + 1`.  Two sweeps with the same key over ladders with the same number of rungs that agree so far up give the same walkers at `0, …, r`, whatever happens at the hotter temperatures. -/
theorem C117_sees (rng : Rng F) (l : TemperedPDF F D d) (data : Data D) (k : Key) (r : ℕ) (Ts Ts' : List F) (xs xs' : List (Pos F d)) (hlen : xs.length = xs'.length)
    (hT : SameUpTo (r + 1) Ts Ts') (hx : SameUpTo (r + 1) xs xs') :
    SameUpTo r (exchange rng l data Ts k xs).1.positions (exchange rng l data Ts' k xs').1.positions := by
  unfold exchange
  rw [← hlen]
  refine exchScan_sameUpTo rng Ts Ts' r hT _ 0 k _ _ hx (fun j hj => ?_)
  simp only [List.getElem?_map, hx j hj]

theorem exchScan_origin (rng : Rng F) (Ts : List F) (n i : ℕ) (k : Key) (c : ExchCarry F d) (r : ℕ) :
    ∃ j, j ≤ r + 1 ∧ (exchScan rng Ts n i k c).1.positions[r]? = c.positions[j]? := by
  by_cases hr : r < i
  · exact ⟨r, by omega, exchScan_below rng Ts n i k c hr⟩
  induction n generalizing i k c with
  | zero => exact ⟨r, by omega, rfl⟩
  | succ n ih =>
    simp only [exchScan]
    have : ∀ j, j ≤ r + 1 → ∃ j', j' ≤ r + 1 ∧ (exchBody Ts (rng.uniform (split k).2) i c).1.positions[j]? = c.positions[j']? := by
      intro j hj
      simp only [exchBody]
      split
      · by_cases h : i + 1 < c.positions.length
        · rw [swapAt_get i _ h]
          split
          · exact ⟨i + 1, by omega, rfl⟩
          · split
            · exact ⟨i, by omega, rfl⟩
            · exact ⟨j, hj, rfl⟩
        · rw [swapAt_short i _ h]; exact ⟨j, hj, rfl⟩
      · exact ⟨j, hj, rfl⟩
    by_cases hr' : r < i + 1
    · obtain ⟨j, h1, h2⟩ := this r (by omega)
      exact ⟨j, h1, by rw [exchScan_below _ _ _ _ _ _ hr', h2]⟩
    · obtain ⟨j, h1, h2⟩ := ih (i + 1) (split k).1 (exchBody Ts (rng.uniform (split k).2) i c).1 hr'
      obtain ⟨j', h3, h4⟩ := this j h1
      exact ⟨j', h3, by rw [h2, h4]⟩

/-- **C117 (one rung at a time).** In one sweep a walker moves at most one temperature colder: the walker found at temperature `r` afterwards was at one of the temperatures `0, …, r + 1` before. -/
theorem C117_one_rung (rng : Rng F) (l : TemperedPDF F D d) (data : Data D) (Ts : List F) (k : Key) (xs : List (Pos F d)) (r : ℕ) (w : Pos F d)
    (hw : (exchange rng l data Ts k xs).1.positions[r]? = some w) : ∃ j, j ≤ r + 1 ∧ xs[j]? = some w := by
  obtain ⟨j, h1, h2⟩ := exchScan_origin rng Ts (xs.length - 1) 0 k ⟨xs, xs.map (fun x => l.call x data)⟩ r
  exact ⟨j, h1, by rw [← h2]; exact hw⟩

end

/-! ### Good walkers move to the cold chain -/

/-- **C117 (certain exchanges).** Between two neighbouring temperatures with `0 < Tᵢ ≤ Tᵢ₊₁` the exchange is made, whatever the uniform draw strictly between 0 and 1, when the walker at the hotter one has
at least the log-likelihood of the walker at the colder one; and it is always made when the two temperatures are equal. -/
theorem C117_certain (Ts : List ℝ) (u : ℝ) (h0 : 0 < u) (h1 : u < 1) (i : ℕ) (c : ExchCarry ℝ d) (a b Ta Tb : ℝ) (ha : c.logps[i]? = some a) (hb : c.logps[i + 1]? = some b) (hTa : Ts[i]? = some Ta)
    (hTb : Ts[i + 1]? = some Tb) (hpos : 0 < Ta) (hle : Ta ≤ Tb) (h : a ≤ b ∨ Ta = Tb) : (exchBody Ts u i c).2 = true := by
  simp only [exchBody, acceptTest_real, exchRatio, List.getD_eq_getElem?_getD, ha, hb, hTa, hTb, Option.getD_some]
  refine lt_of_lt_of_le (Real.log_neg h0 h1) ?_
  rcases h with h | rfl
  · exact mul_nonneg_of_nonpos_of_nonpos (sub_nonpos.2 (one_div_le_one_div_of_le hpos hle)) (sub_nonpos.2 h)
  · simp

theorem exchScan_best (rng : Rng ℝ) (hu : ∀ k, 0 < rng.uniform k ∧ rng.uniform k < 1) (Ts : List ℝ) (f : Pos ℝ d → ℝ) (j : ℕ) (Ta Tb : ℝ) (hTa : Ts[j]? = some Ta) (hTb : Ts[j + 1]? = some Tb)
    (hpos : 0 < Ta) (hle : Ta ≤ Tb) (b : Pos ℝ d) (n i : ℕ) (hij : i ≤ j) (hn : j < i + n) (k : Key) (c : ExchCarry ℝ d) (hc : c.logps = c.positions.map f) (hb : c.positions[j + 1]? = some b)
    (hbest : ∀ q ≤ j, ∀ w, c.positions[q]? = some w → f w ≤ f b) : (exchScan rng Ts n i k c).1.positions[j]? = some b := by
  have hlen : j + 1 < c.positions.length := (List.getElem?_eq_some_iff.1 hb).1
  induction n generalizing i k c with
  | zero => omega
  | succ n ih =>
    simp only [exchScan]
    rcases Nat.lt_or_ge i j with h | h
    · refine ih (i + 1) (by omega) (by omega) _ _ ?_ ?_ ?_ ?_
      · simp only [exchBody]; split
        · rw [swapAt_map, hc]
        · exact hc
      · simp only [exchBody]; split
        · rw [swapAt_get i _ (by omega), if_neg (by omega), if_neg (by omega), hb]
        · exact hb
      · intro q hq w
        simp only [exchBody]; split
        · rw [swapAt_get i _ (by omega)]
          split
          · exact hbest _ (by omega) w
          · split
            · exact hbest _ (by omega) w
            · exact hbest _ hq w
        · exact hbest q hq w
      · simp only [exchBody]; split
        · rw [swapAt_length]; exact hlen
        · exact hlen
    · obtain rfl : i = j := by omega
      obtain ⟨w, hw⟩ : ∃ w, c.positions[i]? = some w := ⟨_, List.getElem?_eq_getElem (by omega)⟩
      have hacc := C117_certain Ts (rng.uniform (split k).2) (hu _).1 (hu _).2 i c (f w) (f b) Ta Tb (by rw [hc, List.getElem?_map, hw]; rfl) (by rw [hc, List.getElem?_map, hb]; rfl) hTa hTb hpos hle
        (.inl (hbest i le_rfl w hw))
      rw [exchScan_below _ _ _ _ _ _ (Nat.lt_succ_self i)]
      simp only [exchBody] at hacc ⊢
      rw [if_pos hacc, swapAt_get i _ hlen, if_pos rfl, hb]

/-- **C117 (the best walker moves colder).** If the walker at temperature `j + 1` has at least the log-likelihood of every walker at a lower temperature, and `0 < Tⱼ ≤ Tⱼ₊₁`, then after the sweep it is at
temperature `j`, whatever the uniform draws strictly between 0 and 1.  For `j = 0`: the chain itself moves to its nearest replica whenever the replica is at least as likely. -/
theorem C117_best_moves (rng : Rng ℝ) (hu : ∀ k, 0 < rng.uniform k ∧ rng.uniform k < 1) (l : TemperedPDF ℝ D d) (data : Data D) (Ts : List ℝ) (k : Key) (xs : List (Pos ℝ d)) (j : ℕ) (Ta Tb : ℝ)
    (hTa : Ts[j]? = some Ta) (hTb : Ts[j + 1]? = some Tb) (hpos : 0 < Ta) (hle : Ta ≤ Tb) (b : Pos ℝ d) (hb : xs[j + 1]? = some b)
    (hbest : ∀ q ≤ j, ∀ w, xs[q]? = some w → l.base.logPdf.val w data ≤ l.base.logPdf.val b data) : (exchange rng l data Ts k xs).1.positions[j]? = some b := by
  have : j + 1 < xs.length := (List.getElem?_eq_some_iff.1 hb).1
  exact exchScan_best rng hu Ts (fun x => l.call x data) j Ta Tb hTa hTb hpos hle b (xs.length - 1) 0 (Nat.zero_le _) (by omega) k _ rfl hb hbest

/-! ### One call -/

variable [Zero F] [One F] [Add F] [Mul F] [Div F] [Sub F] [Neg F] [NatCast F] [Transc F] [FCmp F] [BufNum F]

theorem ensembleStep_sameUpTo (K : LocalKernel F D d) (l : TemperedPDF F D d) (data : Data D) (n : ℕ) (k : Key) (r : ℕ) (xs xs' : List (Pos F d)) (Ts Ts' : List F) (hlen : xs.length = xs'.length)
    (hx : SameUpTo r xs xs') (hT : SameUpTo r Ts Ts') : SameUpTo r (ensembleStep K l data n k xs Ts) (ensembleStep K l data n k xs' Ts') := by
  intro j hj
  simp only [ensembleStep, List.getElem?_map, List.getElem?_zip_eq_some, List.zip, List.getElem?_zipWith, hlen, hx j hj, hT j hj]

theorem coldRow_of_heads {ps ps' : List (List (Pos F d))} (h : ps.map (·.head?) = ps'.map (·.head?)) : coldRow ps = coldRow ps' := by
  have e : ∀ qs : List (List (Pos F d)), coldRow qs = (qs.map (·.head?)).filterMap id := by
    intro qs; simp [coldRow, List.filterMap_map, Function.comp_def]
  rw [e, e, h]

theorem plan_near (env : Env F D d M O) (s : ParallelTempering) (k : Key) (xs : List (Pos F d)) (data : Data D) (h h' : Heap F D d M O) (P T : String) (rest : List String)
    (hnames : s.bufferNames = P :: T :: rest) (hK : s.kernelName ≠ P ∧ s.kernelName ≠ T) (hL : s.temperedLogpdfName ≠ P ∧ s.temperedLogpdfName ≠ T) (hS : s.stateName ≠ P ∧ s.stateName ≠ T)
    (hA : SameNearCold P T h h') :
    (∃ e, s.plan env k xs data h = .error e ∧ s.plan env k xs data h' = .error e) ∨
    ∃ p p', s.plan env k xs data h = .ok p ∧ s.plan env k xs data h' = .ok p' ∧ p.outKey = p'.outKey ∧ p.training = p'.training ∧ coldRow p.positions = coldRow p'.positions := by
  obtain ⟨hR, ⟨pb, pb', e1, e1', hp1, hp2⟩, ⟨tb, tb', e2, e2', ht1, ht2, ht3⟩⟩ := hA
  have g1 : h.getBuffer P = .ok pb := by simp [Heap.getBuffer, Heap.get, e1]
  have g1' : h'.getBuffer P = .ok pb' := by simp [Heap.getBuffer, Heap.get, e1']
  have g2 : h.getBuffer T = .ok tb := by simp [Heap.getBuffer, Heap.get, e2]
  have g2' : h'.getBuffer T = .ok tb' := by simp [Heap.getBuffer, Heap.get, e2']
  have n0 : nthName s.bufferNames 0 = .ok P := by simp [nthName, hnames]
  have n1 : nthName s.bufferNames 1 = .ok T := by simp [nthName, hnames]
  unfold ParallelTempering.plan
  simp only [hR.getKernel (n := s.kernelName) hK, hR.getTempered (n := s.temperedLogpdfName) hL, hR.getState (n := s.stateName) hS, n0, n1, g1, g1', g2, g2', hp1, ht1, bind, Except.bind]
  cases h'.getKernel s.kernelName with
  | error e => exact .inl ⟨e, rfl, rfl⟩
  | ok kr =>
  dsimp only
  cases h'.getTempered s.temperedLogpdfName with
  | error e => exact .inl ⟨e, rfl, rfl⟩
  | ok l =>
  dsimp only
  cases h'.getState s.stateName with
  | error e => exact .inl ⟨e, rfl, rfl⟩
  | ok st =>
  dsimp only
  split
  · rename_i K nChains nRep dd nTemps hKK hsh hsh'
    split
    · rename_i hc
      cases st.data "training" with
      | none => exact .inl ⟨_, rfl, rfl⟩
      | some v =>
        refine .inr ⟨_, _, rfl, rfl, rfl, rfl, ?_⟩
        refine coldRow_of_heads ?_
        apply List.ext_getElem?
        intro i
        simp only [List.getElem?_map, List.zip, List.getElem?_zipWith, splitN_getElem?, withReplicas, List.getElem?_zipIdx]
        cases xs[i]? with
        | none => simp
        | some x =>
          by_cases hi : i < xs.length
          · simp only [hi, if_true, Option.map_some, List.head?_eq_getElem?, Option.some.injEq]
            have hTT : SameUpTo 1 ((List.range nTemps).map fun i => tb.data.get [i]) ((List.range nTemps).map fun i => tb'.data.get [i]) := by
              intro j hj
              have : j = 0 ∨ j = 1 := by omega
              rcases this with rfl | rfl <;> simp only [List.getElem?_map, List.getElem?_range, ht2, ht3]
              · cases h0 : (List.range nTemps)[0]? with
                | none => rfl
                | some q => obtain ⟨_, rfl⟩ := List.getElem?_eq_some_iff.1 h0; simp [ht2]
              · cases h0 : (List.range nTemps)[1]? with
                | none => rfl
                | some q => obtain ⟨_, rfl⟩ := List.getElem?_eq_some_iff.1 h0; simp [ht3]
            refine C117_sees env.rng l data _ 0 _ _ _ _ (by rw [ensembleStep, ensembleStep]; simp) hTT (ensembleStep_sameUpTo K l data s.nSteps _ 1 _ _ _ _ (by simp) ?_ hTT) 0 le_rfl
            intro j hj
            have : j = 0 ∨ j = 1 := by omega
            rcases this with rfl | rfl
            · rfl
            · simp only [List.getElem?_cons_succ, List.getElem?_map]
              cases h0 : (List.range nRep)[0]? with
              | none => rfl
              | some q =>
                obtain ⟨_, rfl⟩ := List.getElem?_eq_some_iff.1 h0
                simp only [Option.map_some, Option.some.injEq, List.getElem_range]
                funext c
                exact hp2 _ _
          · simp [hi]
    · exact .inl ⟨_, rfl, rfl⟩
  · exact .inl ⟨_, rfl, rfl⟩

theorem plan_quiet (env : Env F D d M O) (s : ParallelTempering) (k : Key) (xs : List (Pos F d)) (data : Data D) (h : Heap F D d M O)
    (st : State) (hst : h.res s.stateName = some (.state st)) (ht : st.data "training" = some (.bool false)) (p : PTPlan F d) (hp : s.plan env k xs data h = .ok p) : p.training = false := by
  have e5 : h.getState s.stateName = .ok st := by simp [Heap.getState, Heap.get, hst]
  simp only [ParallelTempering.plan, bind, Except.bind, e5] at hp
  repeat' split at hp <;> try (cases hp; done)
  simp only [Except.ok.injEq] at hp
  subst hp
  rename_i v hv
  rw [ht] at hv
  simp only [Option.some.injEq] at hv
  subst hv
  rfl

/-- **C117 (one production call).** Outside training, a tempering call returns the same key and the same positions (or raises the same exception) on two sets of resources that differ at most in the replicas
above the nearest one and in the temperatures from the third on; and it changes nothing. -/
theorem C117_call (env : Env F D d M O) (s : ParallelTempering) (k : Key) (xs : List (Pos F d)) (data : Data D) (h h' : Heap F D d M O) (P T : String) (rest : List String)
    (hnames : s.bufferNames = P :: T :: rest) (hK : s.kernelName ≠ P ∧ s.kernelName ≠ T) (hL : s.temperedLogpdfName ≠ P ∧ s.temperedLogpdfName ≠ T) (hS : s.stateName ≠ P ∧ s.stateName ≠ T)
    (hA : SameNearCold P T h h') (st : State) (hst : h.res s.stateName = some (.state st)) (ht : st.data "training" = some (.bool false)) :
    (s.run env k xs data h).1 = (s.run env k xs data h').1 ∧ (s.run env k xs data h).2 = h ∧ (s.run env k xs data h').2 = h' := by
  have hst' : h'.res s.stateName = some (.state st) := by rw [← hA.rest.1 s.stateName hS, hst]
  have f := tempering_frozen env s k xs data h st hst ht
  have f' := tempering_frozen env s k xs data h' st hst' ht
  refine ⟨?_, f, f'⟩
  rcases plan_near env s k xs data h h' P T rest hnames hK hL hS hA with ⟨e, h1, h2⟩ | ⟨p, p', h1, h2, h3, h4, h5⟩
  · simp only [ParallelTempering.run, h1, h2]
  · have hp := plan_quiet env s k xs data h st hst ht p h1
    simp only [ParallelTempering.run, h1, h2, hp, ← h4, h3, h5, Bool.false_eq_true, if_false]

/-! ### The production phase of the tempered bundle -/

/-- Everything but the replicas and the temperatures. -/
def Spec.notTempering : Set String := {n | n ≠ "tempered_positions" ∧ n ≠ "temperatures"}

/-- A strategy of a production loop other than tempering does not look at the replicas or the temperatures, and does not change them. -/
theorem production_respects (env : Env F D d M O) (c : BundleCfg F D d M O) (strats : String → Option (Strategy F D d M O)) (hb : IsBundle c strats) (name : String)
    (hname : name ∈ ["local_stepper", "update_global_step", "global_stepper", "update_local_step"])
    (s : Strategy F D d M O) (hs : strats name = some s) (k : Key) (xs : List (Pos F d)) (data : Data D) (h h' : Heap F D d M O) (hq : InPhase h true) (hA : ResAgree notTempering h h') :
    SameOutcome notTempering (s.run env k xs data h) (s.run env k xs data h') := by
  have hstep : ∀ s : TakeSteps, s.stateName = "sampler_state" → s.logpdfName = "logpdf" → s.kernelName ∈ notTempering →
      (∀ n ∈ s.bufferNames, n ∈ ["target_positions", "target_log_prob", "target_local_accs", "target_global_accs"]) → UsesOnly s h notTempering := by
    intro s e1 e2 e3 e4
    refine ⟨e3, by rw [e2]; simp [notTempering], by rw [e1]; simp [notTempering], ?_⟩
    intro st hst key hk n hn
    obtain ⟨st', h1, ⟨p1, p2, p3, p4⟩, -⟩ := hq
    rw [e1, h1] at hst
    simp only [Option.some.injEq, Resource.state.injEq] at hst
    subst hst
    have := e4 key hk
    simp only [List.mem_cons, List.not_mem_nil, or_false] at this
    rcases this with rfl | rfl | rfl | rfl
    · rw [p1] at hn; simp only [Option.some.injEq, SVal.str.injEq] at hn; subst hn; simp [notTempering, posName]
    · rw [p2] at hn; simp only [Option.some.injEq, SVal.str.injEq] at hn; subst hn; simp [notTempering, logpName]
    · rw [p3] at hn; simp only [Option.some.injEq, SVal.str.injEq] at hn; subst hn; simp [notTempering, accName]
    · rw [p4] at hn; simp only [Option.some.injEq, SVal.str.injEq] at hn; subst hn; simp [notTempering, accName]
  rcases hb.cases' name s hs with ⟨rfl, rfl⟩ | ⟨rfl, rfl⟩ | ⟨rfl, w, rfl⟩ | ⟨rfl, rfl⟩ | ⟨rfl, rfl⟩ | ⟨rfl, rfl⟩ | ⟨rfl, rfl⟩ | ⟨rfl, rfl⟩ | ⟨rfl, p, -, rfl⟩ | ⟨rfl, p, -, rfl⟩
  · exact C84_take_steps env _ k xs data h h' hA (hstep _ rfl rfl (by simp [notTempering, localStepper]) (by simp [localStepper]))
  · exact C84_take_steps env _ k xs data h h' hA (hstep _ rfl rfl (by simp [notTempering, globalStepper]) (by simp [globalStepper]))
  · exact absurd hname (by decide)
  · exact absurd hname (by decide)
  · refine runLambda_agree _ k xs data h h' ⟨rfl, ?_⟩
    simp only [updateGlobalStep, hA.2]; exact hA.setPos _ _
  · refine runLambda_agree _ k xs data h h' ⟨rfl, ?_⟩
    simp only [updateLocalStep, hA.2]; exact hA.setPos _ _
  · exact absurd hname (by decide)
  · exact absurd hname (by decide)
  · exact absurd hname (by decide)
  · exact absurd hname (by decide)

/-- **C117 (production sees only the nearest replica).** Start any sequence of production strategies of the tempered bundle, tempering calls included, from two states of the resources in which production has begun
and that differ at most in the replicas above the nearest one and in the temperatures from the third on.  The two runs return the same key and the same positions, or raise the same exception, and leave the same
resources apart from those two buffers: in particular the same samples in all the production buffers. -/
theorem C117_production (env : Env F D d M O) (c : BundleCfg F D d M O) (p : PTCfg F D d) (data : Data D) (names : List String)
    (hn : ∀ n ∈ names, n ∈ ["parallel_tempering", "local_stepper", "update_global_step", "global_stepper", "update_local_step"])
    (k : Key) (xs : List (Pos F d)) (h h' : Heap F D d M O) (hq : InPhase h true) (hA : SameNearCold "tempered_positions" "temperatures" h h') :
    (runOrder env (ptBundle c p).strategies.lookup names k xs data h).1 = (runOrder env (ptBundle c p).strategies.lookup names k xs data h').1 ∧
    SameNearCold "tempered_positions" "temperatures" (runOrder env (ptBundle c p).strategies.lookup names k xs data h).2 (runOrder env (ptBundle c p).strategies.lookup names k xs data h').2 := by
  have hb : IsBundle c (ptBundle c p).strategies.lookup := (LibraryBundle.pt p).isBundle
  induction names generalizing k xs h h' with
  | nil => exact ⟨rfl, hA⟩
  | cons a as ih =>
    have hmem := hn a List.mem_cons_self
    have ih := ih (fun n hn' => hn n (List.mem_cons_of_mem _ hn'))
    have hstd : ∀ s, (ptBundle c p).strategies.lookup a = some s →
        (s.run env k xs data h).1 = (s.run env k xs data h').1 ∧ SameNearCold "tempered_positions" "temperatures" (s.run env k xs data h).2 (s.run env k xs data h').2 ∧ InPhase (s.run env k xs data h).2 true := by
      intro s hs
      have hne : a ≠ "update_state" := by rintro rfl; exact absurd hmem (by decide)
      have hph := inPhase_step env c _ hb true a hne s hs k xs data h hq
      have hq' : InPhase h' true := by
        obtain ⟨st, h1, h2⟩ := hq
        exact ⟨st, by rw [← hA.rest.1 "sampler_state" ⟨by decide, by decide⟩, h1], h2⟩
      by_cases hpt : a = "parallel_tempering"
      · subst hpt
        have : s = .parallelTempering (ptStrat c p) := by
          have : (ptBundle c p).strategies.lookup "parallel_tempering" = some (.parallelTempering (ptStrat c p)) := rfl
          rw [this] at hs; exact (Option.some.inj hs).symm
        subst this
        obtain ⟨st, hst, -, ht⟩ := hq
        obtain ⟨e1, e2, e3⟩ := C117_call env (ptStrat c p) k xs data h h' "tempered_positions" "temperatures" [] rfl ⟨by simp [ptStrat], by simp [ptStrat]⟩ ⟨by simp [ptStrat], by simp [ptStrat]⟩ ⟨by simp [ptStrat], by simp [ptStrat]⟩ hA st hst ht
        refine ⟨e1, ?_, hph⟩
        simp only [Strategy.run, e2, e3]; exact hA
      · have hmem' : a ∈ ["local_stepper", "update_global_step", "global_stepper", "update_local_step"] := by
          simp only [List.mem_cons, List.not_mem_nil, or_false] at hmem ⊢
          rcases hmem with h | h
          · exact absurd h hpt
          · exact h
        obtain ⟨e1, e2⟩ := production_respects env c _ hb a hmem' s hs k xs data h h' hq hA.rest
        have frame : ∀ g : Heap F D d M O, InPhase g true → ∀ n, n ∈ ["tempered_positions", "temperatures"] → (s.run env k xs data g).2.res n = g.res n := by
          intro g hg n hn'
          have := C58_production_frozen env c (ptBundle c p) (.pt p) data [a] (by simpa using hmem) k xs g hg n (by
            simp only [List.mem_cons, List.not_mem_nil, or_false] at hn'
            rcases hn' with rfl | rfl <;> decide)
          rw [← this]
          simp only [runOrder, hs]
          rcases s.run env k xs data g with ⟨e | ⟨k1, x1⟩, g1⟩ <;> rfl
        refine ⟨e1, ⟨e2, ?_, ?_⟩, hph⟩
        · rw [frame h hq _ (by simp), frame h' hq' _ (by simp)]; exact hA.replicas
        · rw [frame h hq _ (by simp), frame h' hq' _ (by simp)]; exact hA.temperatures
    unfold runOrder
    cases hs : (ptBundle c p).strategies.lookup a with
    | none => exact ⟨rfl, hA⟩
    | some s =>
      obtain ⟨e1, e2, e3⟩ := hstd s hs
      rcases hr : s.run env k xs data h with ⟨e | ⟨k1, x1⟩, g⟩ <;> rcases hr' : s.run env k xs data h' with ⟨e' | ⟨k1', x1'⟩, g'⟩ <;> rw [hr, hr'] at e1 e2 <;> rw [hr] at e3 <;> simp only [hr, hr']
      · simp only at e1 e2 ⊢; exact ⟨by rw [Except.error.inj e1], e2⟩
      · cases e1
      · cases e1
      · simp only [Except.ok.injEq, Prod.mk.injEq] at e1 e2 e3 ⊢
        obtain ⟨rfl, rfl⟩ := e1
        exact ih _ _ _ _ e3 e2

end FlowMC
