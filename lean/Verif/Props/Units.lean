import Mathlib.Tactic.FieldSimp
import Mathlib.Tactic.LinearCombination
import Verif.Lemmas.Gaussian
import Verif.Spec.Units
import Verif.Props.UpToConstant
/-
C110: units and origin of the parameters do not matter.
-/
set_option linter.unusedSectionVars false
namespace FlowMC
open Spec

variable {D M O : Type} {d : ℕ} {s : ℝ} {o : Fin d → ℝ}

/-! ### Kernels -/

theorem sumFin_mul (c : ℝ) (f : Fin d → ℝ) : sumFin (fun i => c * f i) = c * sumFin f := by
  rw [sumFin_eq, sumFin_eq, Finset.mul_sum]

theorem isoNormLogpdf_units (hs : s ≠ 0) (y m : Pos ℝ d) (e : ℝ) :
    isoNormLogpdf (newUnits s o y) (newUnits s o m) (s * e * (s * e)) = isoNormLogpdf y m (e * e) - (d : ℝ) / two * (Transc.log (s * e * (s * e)) - Transc.log (e * e)) := by
  have e1 : (fun i => (newUnits s o y i - newUnits s o m i) * (newUnits s o y i - newUnits s o m i)) = fun i => s * s * ((y i - m i) * (y i - m i)) := by
    funext i; simp only [newUnits]; ring
  simp only [isoNormLogpdf, e1, sumFin_mul]
  have e2 : -(1 / (two : ℝ)) * (s * s * sumFin fun i => (y i - m i) * (y i - m i)) / (s * e * (s * e)) = -(1 / two) * (sumFin fun i => (y i - m i) * (y i - m i)) / (e * e) := by
    have hss : s * s ≠ 0 := mul_ne_zero hs hs
    rw [show s * e * (s * e) = (s * s) * (e * e) by ring, show -(1 / (two : ℝ)) * (s * s * sumFin fun i => (y i - m i) * (y i - m i)) = (s * s) * (-(1 / two) * sumFin fun i => (y i - m i) * (y i - m i)) by ring,
      mul_div_mul_left _ _ hss]
  rw [e2]
  ring

theorem malaMean_units (hs : s ≠ 0) (e : ℝ) (x g g' : Pos ℝ d) (hg : ∀ i, g' i = g i / s) : malaMean (s * e) (newUnits s o x) g' = newUnits s o (malaMean e x g) := by
  funext i
  simp only [malaMean, newUnits, hg, two]
  field_simp
  ring

theorem malaRatio_units (hs : s ≠ 0) (e : ℝ) (x y gx gy gx' gy' : Pos ℝ d) (hx : ∀ i, gx' i = gx i / s) (hy : ∀ i, gy' i = gy i / s) (lx ly : ℝ) :
    malaRatio (s * e) (newUnits s o x) (newUnits s o y) gx' gy' lx ly = malaRatio e x y gx gy lx ly := by
  simp only [malaRatio, malaMean_units hs e _ _ _ hx, malaMean_units hs e _ _ _ hy, isoNormLogpdf_units hs]
  ring

theorem leapfrog_units (hs : s ≠ 0) (e : ℝ) (nLeap : ℕ) (metric : Mat ℝ d) (gU gU' : Pos ℝ d → Pos ℝ d) (hg : ∀ x i, gU' (newUnits s o x) i = gU x i / s) (x p : Pos ℝ d) :
    leapfrogStep (s * e) nLeap metric gU' (newUnits s o x, p) = (newUnits s o (leapfrogStep e nLeap metric gU (x, p)).1, (leapfrogStep e nLeap metric gU (x, p)).2) := by
  unfold leapfrogStep
  generalize List.range (nLeap + 2) = l
  induction l generalizing x p with
  | nil => rfl
  | cons i l ih =>
    simp only [List.foldl_cons]
    have : leapfrogBody (s * e) nLeap metric gU' i (newUnits s o x, p) = (newUnits s o (leapfrogBody e nLeap metric gU i (x, p)).1, (leapfrogBody e nLeap metric gU i (x, p)).2) := by
      have e1 : (fun j => newUnits s o x j + s * e * (leapfrogCoef (F := ℝ) nLeap i).1 * hmcKineticGrad metric p j) =
          newUnits s o (fun j => x j + e * (leapfrogCoef (F := ℝ) nLeap i).1 * hmcKineticGrad metric p j) := by
        funext j; simp only [newUnits]; ring
      simp only [leapfrogBody, e1, hg]
      congr 1
      funext j
      field_simp
    rw [this]
    exact ih _ _

/-- **C110 (one step).** In new units, with the step size scaled accordingly, a step of GRW, MALA or HMC with the same key proposes the same point, takes the same decision and records the same
log-density. -/
theorem C110_kernel (hs : s ≠ 0) (rng : Rng ℝ) (ops : FlowOps ℝ d M O) (kr kr' : KernelRes ℝ d M) (hkr : KernelInUnits ops s o kr kr') (K K' : LocalKernel ℝ D d) (hK : kr.local? rng = some K)
    (hK' : kr'.local? rng = some K') (t t' : Target ℝ D d) (ht : InUnits s o t t') (k : Key) (x : Pos ℝ d) (lp : ℝ) (data : Data D) :
    K' k (newUnits s o x) lp t' data = stepIn s o (K k x lp t data) := by
  obtain ⟨hv, hg⟩ := ht
  cases kr with
  | grw e =>
    cases kr' <;> simp only [KernelInUnits] at hkr
    subst hkr
    simp only [KernelRes.local?, Option.some.injEq] at hK hK'
    subst hK hK'
    have e1 : ∀ ξ : Pos ℝ d, grwProposal (s * e) (newUnits s o x) ξ = newUnits s o (grwProposal e x ξ) := fun ξ => by
      funext i; simp only [grwProposal, newUnits]; ring
    simp only [grwKernel, grwStep, stepIn, e1, hv]
    generalize acceptTest (F := ℝ) _ _ = a
    cases a <;> rfl
  | mala e =>
    cases kr' <;> simp only [KernelInUnits] at hkr
    subst hkr
    simp only [KernelRes.local?, Option.some.injEq] at hK hK'
    subst hK hK'
    have e1 : ∀ ξ : Pos ℝ d, malaProposal (s * e) (newUnits s o x) (t'.grad (newUnits s o x) data) ξ = newUnits s o (malaProposal e x (t.grad x data) ξ) := fun ξ => by
      funext i
      simp only [malaProposal, malaMean_units hs e x _ _ (hg x data)]
      simp only [newUnits, malaProposal]; ring
    simp only [malaKernel, malaStep, stepIn, e1, hv, malaRatio_units hs e x _ _ _ _ _ (hg x data) (hg _ data)]
    generalize acceptTest (F := ℝ) _ _ = a
    cases a <;> rfl
  | hmc e n metric L =>
    cases kr' <;> simp only [KernelInUnits] at hkr
    obtain ⟨rfl, rfl, rfl, rfl⟩ := hkr
    simp only [KernelRes.local?, Option.some.injEq] at hK hK'
    subst hK hK'
    simp only [hmcKernel, hmcStep, stepIn]
    rw [leapfrog_units hs e _ _ (fun y i => -(t.grad y data i)) (fun y i => -(t'.grad y data i)) (fun y i => by simp only [hg]; ring)]
    simp only [hv]
    generalize acceptTest (F := ℝ) _ _ = a
    cases a <;> rfl
  | nf m b => simp [KernelRes.local?] at hK

theorem localBody_units {K K' : LocalKernel ℝ D d} {t t' : Target ℝ D d} {data : Data D} (h : ∀ k x lp, K' k (newUnits s o x) lp t' data = stepIn s o (K k x lp t data))
    (n : ℕ) (k : Key) (x : Pos ℝ d) (lp : ℝ) :
    scanN (localBody K' t' data) n (k, newUnits s o x, lp) =
      (((scanN (localBody K t data) n (k, x, lp)).1.1, newUnits s o (scanN (localBody K t data) n (k, x, lp)).1.2.1, (scanN (localBody K t data) n (k, x, lp)).1.2.2),
        (scanN (localBody K t data) n (k, x, lp)).2.map (stepIn s o)) :=
  scanN_map (localBody K t data) (localBody K' t' data) (fun q => (q.1, newUnits s o q.2.1, q.2.2)) (stepIn s o) (fun q => by
    simp only [localBody, h]
    rfl) n (k, x, lp)

/-- **C110 (a chain of local steps).** -/
theorem C110_serial (hs : s ≠ 0) (rng : Rng ℝ) (ops : FlowOps ℝ d M O) (kr kr' : KernelRes ℝ d M) (hkr : KernelInUnits ops s o kr kr') (K K' : LocalKernel ℝ D d) (hK : kr.local? rng = some K)
    (hK' : kr'.local? rng = some K') (t t' : Target ℝ D d) (ht : InUnits s o t t') (data : Data D) (n : ℕ) (k : Key) (x : Pos ℝ d) :
    serialSample K' t' data n k (newUnits s o x) = (serialSample K t data n k x).map (stepIn s o) := by
  unfold serialSample
  rw [ht.1, localBody_units fun k x lp => C110_kernel hs rng ops kr kr' hkr K K' hK hK' t t' ht k x lp data]

theorem nfScan_units (rng : Rng ℝ) (a : ℝ) (k : Key) (x : Pos ℝ d) (lp lnf : ℝ) (props : List (Pos ℝ d × ℝ × ℝ)) :
    nfScan rng k ⟨newUnits s o x, lp, lnf + a⟩ (props.map fun p => (newUnits s o p.1, p.2.1, p.2.2 + a)) = (nfScan rng k ⟨x, lp, lnf⟩ props).map (stepIn s o) := by
  unfold nfScan
  have := scan_map (fun (q : Key × NFCarry ℝ d) (p : Pos ℝ d × ℝ × ℝ) =>
      let ks := split q.1
      let r := nfBody (rng.uniform ks.2) q.2 p
      ((ks.1, r.1), r.2)) (fun (q : Key × NFCarry ℝ d) (p : Pos ℝ d × ℝ × ℝ) =>
      let ks := split q.1
      let r := nfBody (rng.uniform ks.2) q.2 p
      ((ks.1, r.1), r.2)) (fun q => (q.1, ⟨newUnits s o q.2.pos, q.2.logp, q.2.lognf + a⟩)) (fun p => (newUnits s o p.1, p.2.1, p.2.2 + a)) (stepIn s o) (fun q p => by
        have e : p.2.2 + a - (q.2.lognf + a) = p.2.2 - q.2.lognf := by ring
        simp only [nfBody, stepIn, e]
        generalize acceptTest (F := ℝ) _ _ = b
        cases b <;> rfl) props (k, ⟨x, lp, lnf⟩)
  exact congrArg Prod.snd this

theorem flowBatches_units (ops : FlowOps ℝ d M O) (m m' : M) (h : ∀ k n, ops.sample m' k n = (ops.sample m k n).map (newUnits s o)) (nS n : ℕ) (k : Key) :
    flowBatches ops m' nS n k = (flowBatches ops m nS n k).map (List.map (newUnits s o)) := by
  induction n generalizing k with
  | zero => rfl
  | succ n ih => simp only [flowBatches, h, ih, List.map_cons]

theorem sampleFlow_units (ops : FlowOps ℝ d M O) (m m' : M) (a : ℝ) (h : ∀ k n, ops.sample m' k n = (ops.sample m k n).map (newUnits s o))
    (ha : ∀ x, ops.logProb m' (newUnits s o x) = ops.logProb m x + a) (batch : ℕ) (k : Key) (n : ℕ) :
    sampleFlow ops m' batch k n = (sampleFlow ops m batch k n).map fun p => (newUnits s o p.1, p.2 + a) := by
  unfold sampleFlow
  split
  · simp only [flowBatches_units ops m m' h, List.map_take, List.map_flatten, List.map_map, Function.comp_def, ha]
  · simp only [h, List.map_map, Function.comp_def, ha]

theorem chunks_map {α β : Type} (f : α → β) (b n : ℕ) (xs : List α) : chunks b n (xs.map f) = (chunks b n xs).map (List.map f) := by
  induction n generalizing xs with
  | zero => rfl
  | succ n ih => simp only [chunks, List.map_cons, List.map_take, ← List.map_drop, ih]

theorem proposedLogProbs_units (t t' : Target ℝ D d) (ht : InUnits s o t t') (data : Data D) (batch n : ℕ) (props : List (Pos ℝ d)) :
    proposedLogProbs t' data batch n (props.map (newUnits s o)) = proposedLogProbs t data batch n props := by
  unfold proposedLogProbs
  split
  · simp only [List.length_map, ← List.map_take, ← List.map_drop, chunks_map, List.map_map, Function.comp_def, ht.1]
  · simp only [List.map_map, Function.comp_def, ht.1]

/-- **C110 (a sweep of flow proposals).** -/
theorem C110_group (env : Env ℝ D d M O) (m m' : M) (hm : FlowInUnits env.ops s o m m') (batch : ℕ) (t t' : Target ℝ D d) (ht : InUnits s o t t') (data : Data D) (n : ℕ) (k : Key) (x : Pos ℝ d) :
    groupSample env m' batch t' data n k (newUnits s o x) = (groupSample env m batch t data n k x).map (List.map (stepIn s o)) := by
  obtain ⟨h, a, ha⟩ := hm
  unfold groupSample nfKernel
  simp only
  split
  · rfl
  · simp only [Except.map, Except.ok.injEq, ht.1, ha, sampleFlow_units env.ops m m' a h ha]
    rw [← nfScan_units (a := a)]
    congr 1
    have : (List.map (fun p : Pos ℝ d × ℝ => (newUnits s o p.1, p.2 + a)) (sampleFlow env.ops m batch (split k).2 n)).map (·.1) =
        ((sampleFlow env.ops m batch (split k).2 n).map (·.1)).map (newUnits s o) := by simp only [List.map_map, Function.comp_def]
    rw [this, proposedLogProbs_units t t' ht, List.zip_map_left, List.map_map, List.map_map]
    rfl

/-! ### Tempering -/

theorem tempered_units (l l' : TemperedPDF ℝ D d) (hb : InUnits s o l.base.logPdf l'.base.logPdf) (hp : InUnits s o l.logPrior l'.logPrior) (T : ℝ) :
    InUnits s o (l.tempered T) (l'.tempered T) := by
  refine ⟨fun x data => ?_, fun x data i => ?_⟩
  · simp only [TemperedPDF.tempered, LogPDF.call, hb.1, hp.1]
  · simp only [TemperedPDF.tempered, hb.2, hp.2]; ring

/-- **C110 (tempering).** The steps of all replicas of a chain, and the exchanges between temperatures. -/
theorem C110_replicas (hs : s ≠ 0) (rng : Rng ℝ) (ops : FlowOps ℝ d M O) (kr kr' : KernelRes ℝ d M) (hkr : KernelInUnits ops s o kr kr') (K K' : LocalKernel ℝ D d) (hK : kr.local? rng = some K)
    (hK' : kr'.local? rng = some K') (l l' : TemperedPDF ℝ D d) (hb : InUnits s o l.base.logPdf l'.base.logPdf) (hp : InUnits s o l.logPrior l'.logPrior) (data : Data D) (n : ℕ) (k : Key)
    (xs : List (Pos ℝ d)) (Ts : List ℝ) :
    ensembleStep K' l' data n k (xs.map (newUnits s o)) Ts = (ensembleStep K l data n k xs Ts).map (newUnits s o) ∧
      (exchange rng l' data Ts k (xs.map (newUnits s o))).1.positions = (exchange rng l data Ts k xs).1.positions.map (newUnits s o) ∧
      (exchange rng l' data Ts k (xs.map (newUnits s o))).2 = (exchange rng l data Ts k xs).2 := by
  constructor
  · unfold ensembleStep
    rw [List.length_map, List.zip_map_left, List.zip_map_right, List.map_map, List.map_map]
    refine List.map_congr_left fun b _ => ?_
    simp only [Function.comp, Prod.map, individualStep, id]
    rw [(tempered_units l l' hb hp b.2.2).1, localBody_units fun k x lp => C110_kernel hs rng ops kr kr' hkr K K' hK hK' _ _ (tempered_units l l' hb hp b.2.2) k x lp data]
  · have key : ∀ (N i : ℕ) (k : Key) (ps : List (Pos ℝ d)) (lps : List ℝ),
        exchScan rng Ts N i k ⟨ps.map (newUnits s o), lps⟩ = (⟨(exchScan rng Ts N i k ⟨ps, lps⟩).1.positions.map (newUnits s o), (exchScan rng Ts N i k ⟨ps, lps⟩).1.logps⟩, (exchScan rng Ts N i k ⟨ps, lps⟩).2) := by
      intro N
      induction N with
      | zero => intro i k ps lps; rfl
      | succ N ih =>
        intro i k ps lps
        simp only [exchScan, exchBody, swapAt_listmap]
        have e2 : ∀ b : Bool, (if b = true then (swapAt i ps).map (newUnits s o) else ps.map (newUnits s o)) = (if b = true then swapAt i ps else ps).map (newUnits s o) := by
          intro b; cases b <;> rfl
        simp only [e2, ih]
    have e : (xs.map (newUnits s o)).map (fun x => l'.call x data) = xs.map fun x => l.call x data := by
      simp only [TemperedPDF.call, LogPDF.call, hb.1, List.map_map, Function.comp_def]
    unfold exchange
    rw [e, List.length_map, key]
    exact ⟨rfl, rfl⟩

/-! ### Resources -/

section
variable [BufNum ℝ] {PP PK : Set String} {ops : FlowOps ℝ d M O} {h h' : Heap ℝ D d M O}

theorem Spec.ResourcesIn.getState (hA : ResourcesIn ops s o PP PK h h') (n : String) : h'.getState n = h.getState n := by
  have := hA.res n
  unfold Heap.getState Heap.get
  rcases e : h.res n with _ | r <;> rcases e' : h'.res n with _ | r' <;> (try cases r) <;> (try cases r') <;> simp_all [ResIn]

theorem Spec.ResourcesIn.getBuffer (hA : ResourcesIn ops s o PP PK h h') {n : String} (hn : n ∉ PP) : h'.getBuffer n = h.getBuffer n := by
  have := hA.res n
  unfold Heap.getBuffer Heap.get
  rcases e : h.res n with _ | r <;> rcases e' : h'.res n with _ | r' <;> (try cases r) <;> (try cases r') <;> simp_all [ResIn]

theorem Spec.ResourcesIn.getBuffer_pos (hA : ResourcesIn ops s o PP PK h h') {n : String} (hn : n ∈ PP) :
    (∃ e, h.getBuffer n = .error e ∧ h'.getBuffer n = .error e) ∨ ∃ b b', h.getBuffer n = .ok b ∧ h'.getBuffer n = .ok b' ∧ BufIn s o b b' := by
  have := hA.res n
  unfold Heap.getBuffer Heap.get
  rcases e : h.res n with _ | r <;> rcases e' : h'.res n with _ | r' <;> (try cases r) <;> (try cases r') <;> simp_all [ResIn]

theorem Spec.ResourcesIn.setPos (hA : ResourcesIn ops s o PP PK h h') (i : String) (n : ℕ) : ResourcesIn ops s o PP PK (h.setPos i n) (h'.setPos i n) := by
  refine ⟨fun j => ?_, hA.res, hA.states⟩
  simp only [Heap.setPos, hA.cursors j]

theorem Spec.ResourcesIn.setRes (hA : ResourcesIn ops s o PP PK h h') (n : String) (r r' : Resource ℝ D d M O) (hr : ResIn ops s o (n ∈ PP) (some r) (some r'))
    (hst : ∀ st, r = .state st → ∀ key m, st.data key = some (.str m) → (m ∈ PP ↔ key ∈ PK)) : ResourcesIn ops s o PP PK (h.setRes n r) (h'.setRes n r') := by
  refine ⟨hA.cursors, fun m => ?_, fun m st hm => ?_⟩
  · simp only [Heap.setRes, dictSet]
    by_cases e : m = n
    · subst e; simpa using hr
    · simpa [e] using hA.res m
  · simp only [Heap.setRes, dictSet] at hm
    by_cases e : m = n
    · subst e; simp only [if_true, Option.some.injEq] at hm; exact hst st hm
    · rw [if_neg e] at hm; exact hA.states m st hm

theorem Spec.ResourcesIn.updateBuffer (hA : ResourcesIn ops s o PP PK h h') {n : String} (hn : n ∉ PP) (u : NDArr ℝ) (i : Int) :
    (h'.updateBuffer n u i).1 = (h.updateBuffer n u i).1 ∧ ResourcesIn ops s o PP PK (h.updateBuffer n u i).2 (h'.updateBuffer n u i).2 := by
  unfold Heap.updateBuffer
  rw [hA.getBuffer hn]
  cases h.getBuffer n with
  | error e => exact ⟨rfl, hA⟩
  | ok b =>
    simp only
    cases b.updateBuffer u i with
    | error e => exact ⟨rfl, hA⟩
    | ok b' => exact ⟨rfl, hA.setRes _ _ _ ⟨fun h => absurd h hn, fun _ => rfl⟩ (by simp)⟩

theorem arrIn_window {a a' u u' : NDArr ℝ} (ha : ArrIn s o a a') (hu : ArrIn s o u u') (dim : ℕ) (hd : dim < 2) (st : ℕ) :
    ArrIn s o ⟨a.shape, fun idx => if st ≤ idx.getD dim 0 ∧ InBounds (idx.set dim (idx.getD dim 0 - st)) u.shape then u.get (idx.set dim (idx.getD dim 0 - st)) else a.get idx⟩
      ⟨a.shape, fun idx => if st ≤ idx.getD dim 0 ∧ InBounds (idx.set dim (idx.getD dim 0 - st)) u.shape then u'.get (idx.set dim (idx.getD dim 0 - st)) else a'.get idx⟩ := by
  refine ⟨rfl, fun idx => ?_⟩
  simp only
  split
  · rcases hu.2 (idx.set dim (idx.getD dim 0 - st)) with ⟨i, j, q, e, hq⟩ | hq
    · left
      have hl : idx.length = 3 := by have := congrArg List.length e; simpa using this
      match idx, hl with
      | [x, y, z], _ =>
        have hz : z = q.val := by
          have : dim = 0 ∨ dim = 1 := by omega
          rcases this with rfl | rfl <;> simp at e <;> exact e.2.2
        exact ⟨x, y, q, by rw [hz], hq⟩
    · exact .inr hq
  · exact ha.2 idx

theorem Spec.ResourcesIn.updateBuffer_pos (hA : ResourcesIn ops s o PP PK h h') {n : String} (hn : n ∈ PP) (u u' : NDArr ℝ) (hu : ArrIn s o u u') (i : Int) :
    (h'.updateBuffer n u' i).1 = (h.updateBuffer n u i).1 ∧ ResourcesIn ops s o PP PK (h.updateBuffer n u i).2 (h'.updateBuffer n u' i).2 := by
  unfold Heap.updateBuffer
  rcases hA.getBuffer_pos hn with ⟨e, e1, e2⟩ | ⟨b, b', e1, e2, hb0, hb1, hb2, hb3, hb4⟩
  · rw [e1, e2]; exact ⟨rfl, hA⟩
  · rw [e1, e2]
    simp only [Buffer.updateBuffer, dynUpdateSliceInDim, hb3, hb4.1, hu.1]
    by_cases h1 : b.cursorDim < b.data.shape.length
    · by_cases h2 : ShapeLE u.shape b.data.shape
      · simp only [h1, h2, if_true]
        exact ⟨trivial, hA.setRes n _ _ (show (_ ∧ _) from ⟨fun _ => ⟨hb0, hb1, hb2, rfl, arrIn_window hb4 hu _ hb0 _⟩, fun h => absurd hn h⟩) (fun st h => by cases h)⟩
      · simp only [h1, h2, if_true, if_false]; exact ⟨trivial, hA⟩
    · simp only [h1, if_false]; exact ⟨trivial, hA⟩

theorem resIn_cases {α : Type} {r r' : PyRes ℝ D d M O α} (hr : r'.1 = r.1 ∧ ResourcesIn ops s o PP PK r.2 r'.2) :
    (∃ e h h', r = (.error e, h) ∧ r' = (.error e, h') ∧ ResourcesIn ops s o PP PK h h') ∨ ∃ a h h', r = (.ok a, h) ∧ r' = (.ok a, h') ∧ ResourcesIn ops s o PP PK h h' := by
  obtain ⟨a, h⟩ := r
  obtain ⟨a', h'⟩ := r'
  obtain ⟨e, hA⟩ := hr
  simp only at e hA
  subst e
  cases a' with
  | error e => exact .inl ⟨e, h, h', rfl, rfl, hA⟩
  | ok a => exact .inr ⟨a, h, h', rfl, rfl, hA⟩

theorem Spec.ResourcesIn.get (hA : ResourcesIn ops s o PP PK h h') (n : String) :
    (∃ e, h.get n = .error e ∧ h'.get n = .error e) ∨ ∃ r r', h.get n = .ok r ∧ h'.get n = .ok r' ∧ ResIn ops s o (n ∈ PP) (some r) (some r') := by
  have := hA.res n
  unfold Heap.get
  rcases e : h.res n with _ | r <;> rcases e' : h'.res n with _ | r' <;> (try cases r) <;> (try cases r') <;> simp_all [ResIn]

theorem Spec.ResourcesIn.hasBuffer (hA : ResourcesIn ops s o PP PK h h') (n : String) :
    (∃ e, h.getBuffer n = .error e ∧ h'.getBuffer n = .error e) ∨ ∃ b b', h.getBuffer n = .ok b ∧ h'.getBuffer n = .ok b' := by
  by_cases hn : n ∈ PP
  · rcases hA.getBuffer_pos hn with ⟨e, h1, h2⟩ | ⟨b, b', h1, h2, -⟩
    · exact .inl ⟨e, h1, h2⟩
    · exact .inr ⟨b, b', h1, h2⟩
  · rw [hA.getBuffer hn]
    cases h.getBuffer n with
    | error e => exact .inl ⟨e, rfl, rfl⟩
    | ok b => exact .inr ⟨b, b, rfl, rfl⟩

end

/-! ### Step strategies -/

theorem mapE_commute {α α' β β' : Type} (φ : α → α') (g : β → β') (f : α → Except Err β) (f' : α' → Except Err β') (hf : ∀ a, f' (φ a) = (f a).map g) (xs : List α) :
    mapE f' (xs.map φ) = (mapE f xs).map (List.map g) := by
  induction xs with
  | nil => rfl
  | cons x xs ih =>
    simp only [List.map_cons, mapE, hf, ih]
    cases f x with
    | error e => rfl
    | ok y => cases mapE f xs <;> rfl

theorem batchedMapE_commute {α α' β β' : Type} (φ : α → α') (g : β → β') (f : α → Except Err β) (f' : α' → Except Err β') (hf : ∀ a, f' (φ a) = (f a).map g) (b fuel : ℕ) (xs : List α) :
    batchedMapE f' b fuel (xs.map φ) = (batchedMapE f b fuel xs).map (List.map g) := by
  induction fuel generalizing xs with
  | zero => rfl
  | succ n ih =>
    simp only [batchedMapE, List.isEmpty_map, ← List.map_take, ← List.map_drop]
    split
    · rfl
    · rw [mapE_commute φ g f f' hf, ih]
      cases mapE f (xs.take b) with
      | error e => rfl
      | ok y => cases batchedMapE f b n (xs.drop b) <;> simp [Except.map]

theorem runChains_units {β β' : Type} (g : β → β') (f : Key → Pos ℝ d → Except Err β) (f' : Key → Pos ℝ d → Except Err β') (hf : ∀ k x, f' k (newUnits s o x) = (f k x).map g) (b : ℕ)
    (keys : List Key) (xs : List (Pos ℝ d)) : runChains f' b keys (xs.map (newUnits s o)) = (runChains f b keys xs).map (List.map g) := by
  unfold runChains
  simp only [List.length_map, List.zip_map_right]
  split
  · exact batchedMapE_commute _ g (fun a : Key × Pos ℝ d => f a.1 a.2) (fun a : Key × Pos ℝ d => f' a.1 a.2) (fun a => hf _ _) _ _ _
  · exact mapE_commute _ g (fun a : Key × Pos ℝ d => f a.1 a.2) (fun a : Key × Pos ℝ d => f' a.1 a.2) (fun a => hf _ _) _

variable [BufNum ℝ] {PP PK : Set String}

theorem sampler_units (hs : s ≠ 0) (env : Env ℝ D d M O) (ts : TakeSteps) (kr kr' lr lr' : Resource ℝ D d M O) (P Q : Prop) (hk : ResIn env.ops s o P (some kr) (some kr'))
    (hl : ResIn env.ops s o Q (some lr) (some lr')) (data : Data D) :
    (∃ e, ts.sampler env kr lr data = .error e ∧ ts.sampler env kr' lr' data = .error e) ∨
      ∃ f f', ts.sampler env kr lr data = .ok f ∧ ts.sampler env kr' lr' data = .ok f' ∧ ∀ k x, f' k (newUnits s o x) = (f k x).map (List.map (stepIn s o)) := by
  have ht : (lr.target? = none ∧ lr'.target? = none) ∨ ∃ t t', lr.target? = some t ∧ lr'.target? = some t' ∧ InUnits s o t t' := by
    cases lr <;> cases lr' <;> simp_all [ResIn, Resource.target?]
  have hk' : (∃ q q', kr = .kernel q ∧ kr' = .kernel q' ∧ KernelInUnits env.ops s o q q') ∨ ((∀ q, kr ≠ .kernel q) ∧ ∀ q, kr' ≠ .kernel q) := by
    cases kr <;> cases kr' <;> simp_all [ResIn]
  rcases hk' with ⟨q, q', rfl, rfl, hq⟩ | ⟨h1, h2⟩
  · rcases ht with ⟨e1, e2⟩ | ⟨t, t', e1, e2, ht⟩
    · left; exact ⟨.typeError, by simp [TakeSteps.sampler, e1], by simp [TakeSteps.sampler, e2]⟩
    · simp only [TakeSteps.sampler, e1, e2]
      cases hkind : ts.kind with
      | group =>
        cases q <;> cases q' <;> simp only [KernelInUnits] at hq
        · left; exact ⟨_, rfl, rfl⟩
        · left; exact ⟨_, rfl, rfl⟩
        · left; exact ⟨_, rfl, rfl⟩
        · right
          obtain ⟨rfl, hm⟩ := hq
          exact ⟨_, _, rfl, rfl, fun k x => C110_group env _ _ hm _ t t' ht data ts.nSteps k x⟩
      | serial =>
        have hK : (q.local? (D := D) env.rng = none ∧ q'.local? (D := D) env.rng = none) ∨ ∃ K K', q.local? (D := D) env.rng = some K ∧ q'.local? (D := D) env.rng = some K' := by
          cases q <;> cases q' <;> simp_all [KernelInUnits, KernelRes.local?]
        rcases hK with ⟨g1, g2⟩ | ⟨K, K', g1, g2⟩
        · left; simp only [g1, g2]; exact ⟨_, rfl, rfl⟩
        · right
          simp only [g1, g2]
          refine ⟨_, _, rfl, rfl, fun k x => ?_⟩
          rw [C110_serial hs env.rng env.ops q q' hq K K' g1 g2 t t' ht]
          rfl
  · left
    refine ⟨.typeError, ?_, ?_⟩
    · cases kr <;> first | rfl | exact absurd rfl (h1 _)
    · cases kr' <;> first | rfl | exact absurd rfl (h2 _)

theorem bufferTarget_pos {st : State} {ts : TakeSteps} (hr : RecordsPositions ts PK) (hst : ∀ key m, st.data key = some (.str m) → (m ∈ PP ↔ key ∈ PK)) {i : ℕ} {n : String}
    (h : bufferTarget st ts.bufferNames i = .ok n) : n ∈ PP ↔ i = 0 := by
  unfold bufferTarget at h
  split at h
  · cases h
  · rename_i key hk
    split at h
    · cases h
    · cases h; rename_i hd; rw [hst key _ hd]; exact hr i key hk
    · cases h

theorem plan_units (hs : s ≠ 0) (env : Env ℝ D d M O) (ts : TakeSteps) (hr : RecordsPositions ts PK) (k : Key) (xs : List (Pos ℝ d)) (data : Data D) (h h' : Heap ℝ D d M O)
    (hA : ResourcesIn env.ops s o PP PK h h') :
    (∃ e, ts.plan env k xs data h = .error e ∧ ts.plan env k (xs.map (newUnits s o)) data h' = .error e) ∨
      ∃ p, ts.plan env k xs data h = .ok p ∧ ts.plan env k (xs.map (newUnits s o)) data h' = .ok { p with rows := p.rows.map (List.map (stepIn s o)) } ∧ p.posName ∈ PP ∧ p.lpName ∉ PP ∧ p.accName ∉ PP := by
  unfold TakeSteps.plan
  simp only [hA.getState, bind, Except.bind, List.length_map]
  cases e : h.getState ts.stateName with
  | error e => exact .inl ⟨_, rfl, rfl⟩
  | ok st =>
    have hst : ∀ key m, st.data key = some (.str m) → (m ∈ PP ↔ key ∈ PK) := by
      refine hA.states ts.stateName st ?_
      simp only [Heap.getState, Heap.get] at e
      cases er : h.res ts.stateName with
      | none => rw [er] at e; cases e
      | some r => rw [er] at e; cases r <;> simp_all
    simp only
    cases e0 : bufferTarget st ts.bufferNames 0 with
    | error e => exact .inl ⟨_, rfl, rfl⟩
    | ok n0 =>
    cases e1 : bufferTarget st ts.bufferNames 1 with
    | error e => exact .inl ⟨_, rfl, rfl⟩
    | ok n1 =>
    cases e2 : bufferTarget st ts.bufferNames 2 with
    | error e => exact .inl ⟨_, rfl, rfl⟩
    | ok n2 =>
    have m0 : n0 ∈ PP := (bufferTarget_pos hr hst e0).2 rfl
    have m1 : n1 ∉ PP := fun hn => by simpa using (bufferTarget_pos hr hst e1).1 hn
    have m2 : n2 ∉ PP := fun hn => by simpa using (bufferTarget_pos hr hst e2).1 hn
    simp only
    rcases hA.hasBuffer n0 with ⟨e, g0, g0'⟩ | ⟨_, _, g0, g0'⟩
    · rw [g0, g0']; exact .inl ⟨_, rfl, rfl⟩
    rcases hA.hasBuffer n1 with ⟨e, g1, g1'⟩ | ⟨_, _, g1, g1'⟩
    · rw [g0, g0', g1, g1']; exact .inl ⟨_, rfl, rfl⟩
    rcases hA.hasBuffer n2 with ⟨e, g2, g2'⟩ | ⟨_, _, g2, g2'⟩
    · rw [g0, g0', g1, g1', g2, g2']; exact .inl ⟨_, rfl, rfl⟩
    rw [g0, g0', g1, g1', g2, g2']
    simp only
    rcases hA.get ts.kernelName with ⟨e, gk, gk'⟩ | ⟨kr, kr', gk, gk', hk⟩
    · rw [gk, gk']; exact .inl ⟨_, rfl, rfl⟩
    rcases hA.get ts.logpdfName with ⟨e, gl, gl'⟩ | ⟨lr, lr', gl, gl', hl⟩
    · rw [gk, gk', gl, gl']; exact .inl ⟨_, rfl, rfl⟩
    rw [gk, gk', gl, gl']
    simp only
    rcases sampler_units hs env ts kr kr' lr lr' _ _ hk hl data with ⟨e, f1, f2⟩ | ⟨f, f', f1, f2, hf⟩
    · rw [f1, f2]; exact .inl ⟨_, rfl, rfl⟩
    rw [f1, f2]
    simp only [runChains_units (List.map (stepIn s o)) f f' hf]
    cases runChains f ts.chainBatchSize (splitN (split k).2 xs.length) xs with
    | error e => exact .inl ⟨_, rfl, rfl⟩
    | ok rows =>
      simp only [Except.map]
      by_cases ht : ts.thinning = 0
      · simp only [ht, if_true]; exact .inl ⟨_, rfl, rfl⟩
      · simp only [ht, if_false]
        refine .inr ⟨_, rfl, ?_, m0, m1, m2⟩
        simp only [List.map_map, Function.comp_def, everyNth_map]

theorem arr3_units (n m : ℕ) (rows : List (List (Pos ℝ d))) : ArrIn s o (arr3 BufNum.negInf n m rows) (arr3 BufNum.negInf n m (rows.map (List.map (newUnits s o)))) := by
  refine ⟨rfl, fun idx => ?_⟩
  unfold arr3
  match idx with
  | [] => exact .inr ⟨rfl, rfl⟩
  | [_] => exact .inr ⟨rfl, rfl⟩
  | [_, _] => exact .inr ⟨rfl, rfl⟩
  | _ :: _ :: _ :: _ :: _ => exact .inr ⟨rfl, rfl⟩
  | [i, j, q] =>
    by_cases hq : q < d
    · simp only [hq, dif_pos, List.getElem?_map]
      cases rows[i]? with
      | none => exact .inr ⟨rfl, rfl⟩
      | some r =>
        simp only [Option.map_some, Option.bind_some, List.getElem?_map]
        cases r[j]? with
        | none => exact .inr ⟨rfl, rfl⟩
        | some v => exact .inl ⟨i, j, ⟨q, hq⟩, rfl, rfl⟩
    · simp only [hq, dif_neg, not_false_eq_true]; exact .inr ⟨trivial, trivial⟩

theorem posArr_units (n m : ℕ) (rows : List (List (StepOut ℝ d))) : ArrIn s o (posArr n m rows) (posArr n m (rows.map (List.map (stepIn s o)))) := by
  have := arr3_units (s := s) (o := o) n m (rows.map (fun r => r.map (·.pos)))
  simp only [List.map_map, Function.comp_def] at this
  simp only [posArr, List.map_map, Function.comp_def, stepIn]
  exact this

theorem lastRows_units (rows : List (List (StepOut ℝ d))) : lastRows (rows.map (List.map (stepIn s o))) = (lastRows rows).map (List.map (newUnits s o)) := by
  unfold lastRows
  exact mapE_commute (List.map (stepIn s o)) (newUnits s o) _ _ (fun r => by rw [List.getLast?_map]; cases r.getLast? <;> rfl) rows

/-- **C110 (step strategies).** Calling a step strategy in new units gives the same exception, or the same key and the positions in new units; everything it leaves in the resources is the same, except
that the positions it records are in new units. -/
theorem C110_take_steps (hs : s ≠ 0) (env : Env ℝ D d M O) (ts : TakeSteps) (hr : RecordsPositions ts PK) (k : Key) (xs : List (Pos ℝ d)) (data : Data D) (h h' : Heap ℝ D d M O)
    (hA : ResourcesIn env.ops s o PP PK h h') : OutcomeIn env.ops s o PP PK (ts.run env k xs data h) (ts.run env k (xs.map (newUnits s o)) data h') := by
  unfold TakeSteps.run
  rcases plan_units hs env ts hr k xs data h h' hA with ⟨e, e1, e2⟩ | ⟨p, e1, e2, m0, m1, m2⟩
  · rw [e1, e2]; exact ⟨rfl, hA⟩
  rw [e1, e2]
  simp only [TakeSteps.commit, hA.cursors, List.length_map]
  have ep : lpArr xs.length ts.nRows (p.rows.map (List.map (stepIn s o))) = lpArr xs.length ts.nRows p.rows := by
    simp only [lpArr, List.map_map, Function.comp_def, stepIn]
  have ea : accArr xs.length ts.nRows (p.rows.map (List.map (stepIn s o))) = accArr xs.length ts.nRows p.rows := by
    simp only [accArr, List.map_map, Function.comp_def, stepIn]
  rw [ep, ea, lastRows_units]
  rcases resIn_cases (hA.updateBuffer_pos m0 _ _ (posArr_units (s := s) (o := o) xs.length ts.nRows p.rows) ((h.pos ts.ident : ℕ) : ℤ)) with ⟨er, h1, h1', e1, e1', hA1⟩ | ⟨_, h1, h1', e1, e1', hA1⟩
  · simp only [e1, e1']; exact ⟨rfl, hA1⟩
  simp only [e1, e1']
  rcases resIn_cases (hA1.updateBuffer m1 (lpArr xs.length ts.nRows p.rows) ((h.pos ts.ident : ℕ) : ℤ)) with ⟨er, h2, h2', e2, e2', hA2⟩ | ⟨_, h2, h2', e2, e2', hA2⟩
  · simp only [e2, e2']; exact ⟨rfl, hA2⟩
  simp only [e2, e2']
  rcases resIn_cases (hA2.updateBuffer m2 (accArr xs.length ts.nRows p.rows) ((h.pos ts.ident : ℕ) : ℤ)) with ⟨er, h3, h3', e3, e3', hA3⟩ | ⟨_, h3, h3', e3, e3', hA3⟩
  · simp only [e3, e3']; exact ⟨rfl, hA3⟩
  simp only [e3, e3', hA3.cursors]
  cases lastRows p.rows with
  | error er => exact ⟨rfl, hA3.setPos _ _⟩
  | ok xs => exact ⟨rfl, hA3.setPos _ _⟩

/-- **C110 (state updates).** -/
theorem C110_update_state (env : Env ℝ D d M O) (u : UpdateState) (hu : KeepsEntries u PP PK) (k : Key) (xs : List (Pos ℝ d)) (h h' : Heap ℝ D d M O) (hA : ResourcesIn env.ops s o PP PK h h') :
    OutcomeIn env.ops s o PP PK (u.run k xs h) (u.run k (xs.map (newUnits s o)) h') := by
  unfold UpdateState.run
  rw [hA.getState]
  cases e : h.getState u.stateName with
  | error e => exact ⟨rfl, hA⟩
  | ok st =>
    have hst : ∀ key m, st.data key = some (.str m) → (m ∈ PP ↔ key ∈ PK) := by
      refine hA.states u.stateName st ?_
      simp only [Heap.getState, Heap.get] at e
      cases er : h.res u.stateName with
      | none => rw [er] at e; cases e
      | some r => rw [er] at e; cases r <;> simp_all
    exact ⟨rfl, hA.setRes _ _ _ rfl (fun st' h => by cases h; exact update_entries st _ _ hu hst)⟩

/-! ### Sequences and `sample` -/

/-- A strategy that does the same in new units. -/
def Spec.UnitFree (s : ℝ) (o : Fin d → ℝ) (PP PK : Set String) (env : Env ℝ D d M O) (data : Data D) (st : Strategy ℝ D d M O) : Prop :=
  ∀ k xs h h', ResourcesIn env.ops s o PP PK h h' → OutcomeIn env.ops s o PP PK (st.run env k xs data h) (st.run env k (xs.map (newUnits s o)) data h')

theorem outcomeIn_cases {env : Env ℝ D d M O} {r r' : PyRes ℝ D d M O (Key × List (Pos ℝ d))} (hr : OutcomeIn env.ops s o PP PK r r') :
    (∃ e h h', r = (.error e, h) ∧ r' = (.error e, h') ∧ ResourcesIn env.ops s o PP PK h h') ∨
      ∃ k xs h h', r = (.ok (k, xs), h) ∧ r' = (.ok (k, xs.map (newUnits s o)), h') ∧ ResourcesIn env.ops s o PP PK h h' := by
  obtain ⟨a, h⟩ := r
  obtain ⟨a', h'⟩ := r'
  obtain ⟨e, hA⟩ := hr
  simp only at e hA
  subst e
  cases a with
  | error e => exact .inl ⟨e, h, h', rfl, rfl, hA⟩
  | ok a => exact .inr ⟨a.1, a.2, h, h', rfl, rfl, hA⟩

/-- **C110 (sequences).** -/
theorem C110_sequence (env : Env ℝ D d M O) (strats : String → Option (Strategy ℝ D d M O)) (data : Data D) (names : List String)
    (hI : ∀ name ∈ names, ∀ st, strats name = some st → UnitFree s o PP PK env data st) (k : Key) (xs : List (Pos ℝ d)) (h h' : Heap ℝ D d M O) (hA : ResourcesIn env.ops s o PP PK h h') :
    OutcomeIn env.ops s o PP PK (runOrder env strats names k xs data h) (runOrder env strats names k (xs.map (newUnits s o)) data h') := by
  induction names generalizing k xs h h' with
  | nil => exact ⟨rfl, hA⟩
  | cons a as ih =>
    unfold runOrder
    cases hst : strats a with
    | none => exact ⟨rfl, hA⟩
    | some st =>
      simp only
      rcases outcomeIn_cases (hI a List.mem_cons_self st hst k xs h h' hA) with ⟨er, g, g', e1, e1', hA1⟩ | ⟨k1, xs1, g, g', e1, e1', hA1⟩
      · simp only [e1, e1']; exact ⟨rfl, hA1⟩
      · simp only [e1, e1']
        exact ih (fun n hn => hI n (List.mem_cons_of_mem _ hn)) k1 xs1 g g' hA1

/-- **C110 (`sample`).** A sampler whose strategies are unit free, called in new units: the same exception or none, and the same resources with the recorded positions in new units. -/
theorem C110_sample {V : Type} (env : Env ℝ D d M O) (S S' : Sampler ℝ D d M O V) (hstr : S'.strategies = S.strategies) (hord : S'.strategyOrder = S.strategyOrder) (hkey : S'.rngKey = S.rngKey)
    (data : Data D) (hI : ∀ order, S.strategyOrder = some order → ∀ name ∈ order, ∀ st, S.strategies name = some st → UnitFree s o PP PK env data st)
    (hA : ResourcesIn env.ops s o PP PK S.heap S'.heap) (init : InitPos ℝ d) :
    (S'.sample env (initIn s o init) data).1 = (S.sample env init data).1 ∧ ResourcesIn env.ops s o PP PK (S.sample env init data).2.heap (S'.sample env (initIn s o init) data).2.heap := by
  have ei : (initIn s o init).atleast2d = init.atleast2d.map (newUnits s o) := by cases init <;> rfl
  unfold Sampler.sample
  rw [hord]
  cases ho : S.strategyOrder with
  | none => exact ⟨rfl, hA⟩
  | some order =>
    simp only [hstr, hkey, ei]
    rcases outcomeIn_cases (C110_sequence env S.strategies data order (hI order ho) S.rngKey init.atleast2d S.heap S'.heap hA) with ⟨er, g, g', e1, e1', hA1⟩ | ⟨_, _, g, g', e1, e1', hA1⟩
    · rw [e1, e1']; exact ⟨rfl, hA1⟩
    · rw [e1, e1']; exact ⟨rfl, hA1⟩

theorem unitFree_model (env : Env ℝ D d M O) (data : Data D) : UnitFree s o PP PK env data (.lambda updateModel) := fun k xs h h' hA => by
  have h1 := hA.res "model"
  have h2 := hA.res "global_sampler"
  simp only [Strategy.run, runLambda]
  rcases e : h.res "model" with _ | r <;> rcases e' : h'.res "model" with _ | r' <;> rw [e, e'] at h1
  · simp only [updateModel, e, e']; exact ⟨rfl, hA⟩
  · cases r' <;> simp [ResIn] at h1
  · cases r <;> simp [ResIn] at h1
  rcases f : h.res "global_sampler" with _ | q <;> rcases f' : h'.res "global_sampler" with _ | q' <;> rw [f, f'] at h2
  · simp only [updateModel, e, e', f, f']; exact ⟨rfl, hA⟩
  · cases q' <;> simp [ResIn] at h2
  · cases q <;> simp [ResIn] at h2
  have a1 : (∃ m m', r = .model m ∧ r' = .model m' ∧ FlowInUnits env.ops s o m m') ∨ ((∀ m, r ≠ .model m) ∧ ∀ m, r' ≠ .model m) := by cases r <;> cases r' <;> simp_all [ResIn]
  have a2 : (∃ m m', q = .kernel m ∧ q' = .kernel m' ∧ KernelInUnits env.ops s o m m') ∨ ((∀ m, q ≠ .kernel m) ∧ ∀ m, q' ≠ .kernel m) := by cases q <;> cases q' <;> simp_all [ResIn]
  rcases a1 with ⟨m, m', rfl, rfl, hm⟩ | ⟨b1, b2⟩
  · rcases a2 with ⟨kr, kr', rfl, rfl, hkr⟩ | ⟨b3, b4⟩
    · by_cases hnf : ∃ m b, kr = .nf m b
      · obtain ⟨m1, b, rfl⟩ := hnf
        cases kr' <;> simp only [KernelInUnits] at hkr
        obtain ⟨rfl, -⟩ := hkr
        simp only [updateModel, e, e', f, f']
        exact ⟨rfl, hA.setRes "global_sampler" _ _ (show KernelInUnits env.ops s o (.nf m _) (.nf m' _) from ⟨rfl, hm⟩) (fun st h => by cases h)⟩
      · have h3 : ∀ m b, Resource.kernel (D := D) (O := O) kr ≠ .kernel (.nf m b) := fun m b hh => by cases hh; exact hnf ⟨m, b, rfl⟩
        have h4 : ∀ m b, Resource.kernel (D := D) (O := O) kr' ≠ .kernel (.nf m b) := fun m b hh => by
          cases hh
          cases kr <;> simp only [KernelInUnits] at hkr
          exact hnf ⟨_, _, rfl⟩
        rw [updateModel_bad k xs data h _ _ e f (.inr h3), updateModel_bad k (xs.map (newUnits s o)) data h' _ _ e' f' (.inr h4)]
        exact ⟨rfl, hA⟩
    · rw [updateModel_bad k xs data h _ _ e f (.inr fun m b => b3 _), updateModel_bad k (xs.map (newUnits s o)) data h' _ _ e' f' (.inr fun m b => b4 _)]
      exact ⟨rfl, hA⟩
  · rw [updateModel_bad k xs data h _ _ e f (.inl b1), updateModel_bad k (xs.map (newUnits s o)) data h' _ _ e' f' (.inl b2)]
    exact ⟨rfl, hA⟩

theorem keeps_positions : KeepsEntries updateStateStrat positionBuffers positionEntries := by
  intro p hp m hm
  simp only [updateStateStrat, List.zip_cons_cons, List.zip_nil_right, List.mem_cons, List.not_mem_nil, or_false] at hp
  rcases hp with rfl | rfl | rfl | rfl | rfl <;> simp_all [positionBuffers, positionEntries] <;> subst hm <;> decide

theorem records_positions (b : BundleCfg ℝ D d M O) : RecordsPositions (localStepper b) positionEntries ∧ RecordsPositions (globalStepper b) positionEntries := by
  constructor
  all_goals
    intro i name hi
    simp only [localStepper, globalStepper] at hi
    match i with
    | 0 => simp at hi; subst hi; simp [positionEntries]
    | 1 => simp at hi; subst hi; simp [positionEntries]
    | 2 => simp at hi; subst hi; simp [positionEntries]
    | n + 3 => simp at hi

/-- **C110 (the bundle).** The strategies of the MALA bundle, except the training of the flow, are unit free; in particular the whole production phase, run from resources in new units, records the same
run in new units. -/
theorem C110_production (hs : s ≠ 0) (env : Env ℝ D d M O) (data : Data D) (b : BundleCfg ℝ D d M O) :
    (∀ name, name ≠ "model_trainer" → ∀ st, (bundleStrategies b).lookup name = some st → UnitFree s o positionBuffers positionEntries env data st) ∧
      ∀ (n : ℕ) (k : Key) (xs : List (Pos ℝ d)) (h h' : Heap ℝ D d M O), ResourcesIn env.ops s o positionBuffers positionEntries h h' →
        OutcomeIn env.ops s o positionBuffers positionEntries (runOrder env (bundleStrategies b).lookup (repeatPhase n productionPhase) k xs data h)
          (runOrder env (bundleStrategies b).lookup (repeatPhase n productionPhase) k (xs.map (newUnits s o)) data h') := by
  have key : ∀ name, name ≠ "model_trainer" → ∀ st, (bundleStrategies b).lookup name = some st → UnitFree s o positionBuffers positionEntries env data st := by
    intro name hname st hst
    simp only [bundleStrategies] at hst
    split at hst <;> simp only [Option.some.injEq, reduceCtorEq] at hst <;> subst hst
    · exact fun k xs h h' hA => C110_take_steps hs env _ (records_positions b).1 k xs data h h' hA
    · exact fun k xs h h' hA => C110_take_steps hs env _ (records_positions b).2 k xs data h h' hA
    · exact absurd rfl hname
    · exact fun k xs h h' hA => C110_update_state env _ keeps_positions k xs h h' hA
    · intro k xs h h' hA
      simp only [Strategy.run, runLambda, updateGlobalStep, hA.cursors]
      exact ⟨rfl, hA.setPos _ _⟩
    · intro k xs h h' hA
      simp only [Strategy.run, runLambda, updateLocalStep, hA.cursors]
      exact ⟨rfl, hA.setPos _ _⟩
    · intro k xs h h' hA
      simp only [Strategy.run, runLambda, resetSteppers]
      exact ⟨rfl, (hA.setPos _ _).setPos _ _⟩
    · exact unitFree_model env data
  refine ⟨key, fun n k xs h h' hA => C110_sequence env _ data _ (fun name hn => key name ?_) k xs h h' hA⟩
  rintro rfl
  simp [repeatPhase, productionPhase] at hn

theorem bundleResources_units (env : Env ℝ D d M O) (b : BundleCfg ℝ D d M O) (t' : Target ℝ D d) (mk' : Key → M) (ht : InUnits s o b.logpdf t')
    (hm : FlowInUnits env.ops s o b.flow ({ b with mkModel := mk' } : BundleCfg ℝ D d M O).flow) :
    ResourcesIn env.ops s o positionBuffers positionEntries ⟨bundleResources b, fun _ => 0⟩ ⟨bundleResources { b with logpdf := t', stepSize := s * b.stepSize, mkModel := mk' }, fun _ => 0⟩ := by
  refine ⟨fun _ => rfl, fun n => ?_, fun n st hn => ?_⟩
  · have hb : ∀ (nm : String) (sh : List ℕ), ResIn (D := D) (M := M) env.ops s o (n ∈ positionBuffers) (some (.buffer (Buffer.new nm sh 1))) (some (.buffer (Buffer.new nm sh 1))) :=
      fun nm sh => ⟨fun _ => ⟨by simp [Buffer.new], rfl, rfl, rfl, rfl, fun _ => .inr ⟨rfl, rfl⟩⟩, fun _ => rfl⟩
    show ResIn env.ops s o _ (bundleResources b n) (bundleResources { b with logpdf := t', stepSize := s * b.stepSize, mkModel := mk' } n)
    unfold bundleResources
    split <;> first | exact hb _ _ | exact ⟨ht, rfl⟩ | exact ⟨rfl, hm⟩ | exact ⟨fun h => by simp [positionBuffers] at h, fun _ => rfl⟩ | exact hm | trivial | rfl
  · have e : st = initialState := bundleResources_states b n st hn
    subst e
    intro key m h
    simp only [initialState, State.new] at h
    split at h <;> simp at h <;> subst h <;> simp_all [positionBuffers, positionEntries]

/-- **C110 (`sample` with a bundle that does not train).** The MALA bundle with no training loops, given the log-density and a flow in new units, the step size scaled and the initial positions in new
units, returns or raises the same, and leaves the same resources with all recorded positions in new units. -/
theorem C110_bundle {V : Type} (hs : s ≠ 0) (env : Env ℝ D d M O) (b : BundleCfg ℝ D d M O) (hb : b.nTrainLoops = 0) (t' : Target ℝ D d) (mk' : Key → M) (ht : InUnits s o b.logpdf t')
    (hm : FlowInUnits env.ops s o b.flow ({ b with mkModel := mk' } : BundleCfg ℝ D d M O).flow) (nd nc : ℕ) (key : Key) (kw : List (String × V)) (S S' : Sampler ℝ D d M O V)
    (hS : Sampler.new nd nc key none none none (some (malaBundle b)) kw = .ok S)
    (hS' : Sampler.new nd nc key none none none (some (malaBundle { b with logpdf := t', stepSize := s * b.stepSize, mkModel := mk' })) kw = .ok S') (init : InitPos ℝ d) (data : Data D) :
    (S'.sample env (initIn s o init) data).1 = (S.sample env init data).1 ∧
      ResourcesIn env.ops s o positionBuffers positionEntries (S.sample env init data).2.heap (S'.sample env (initIn s o init) data).2.heap := by
  simp only [Sampler.new, Except.ok.injEq] at hS hS'
  subst hS hS'
  refine C110_sample env
    { nDim := nd, nChains := nc, rngKey := key, heap := ⟨bundleResources b, fun _ => 0⟩, strategies := (bundleStrategies b).lookup, strategyOrder := some (bundleOrder b), attrs := setAttrs kw fun _ => none }
    { nDim := nd, nChains := nc, rngKey := key, heap := ⟨bundleResources { b with logpdf := t', stepSize := s * b.stepSize, mkModel := mk' }, fun _ => 0⟩, strategies := (bundleStrategies b).lookup,
      strategyOrder := some (bundleOrder b), attrs := setAttrs kw fun _ => none } rfl rfl rfl data (fun order ho name hn st hst => (C110_production hs env data b).1 name ?_ st hst) (bundleResources_units env b t' mk' ht hm) init
  rintro rfl
  simp only [Option.some.injEq] at ho
  have ho : bundleOrder b = order := ho
  rw [← ho] at hn
  simp [bundleOrder, hb, repeatPhase, productionPhase] at hn

/-! ### Non-vacuity -/

/-- A normal density with mean `o` and standard deviation `s`. -/
noncomputable def movedNormal (s : ℝ) (o : Fin d → ℝ) : Target ℝ D d := ⟨fun x _ => -(∑ i, ((x i - o i) / s) ^ 2) / 2, fun x _ i => -((x i - o i) / s) / s⟩

theorem movedNormal_units (hs : s ≠ 0) : InUnits s o (bareNormal : Target ℝ D d) (movedNormal s o) := by
  have e : ∀ (x : Fin d → ℝ) i, (newUnits s o x i - o i) / s = x i := fun x i => by simp only [newUnits]; field_simp; ring
  exact ⟨fun x data => by simp only [bareNormal, movedNormal, e], fun x data i => by simp only [bareNormal, movedNormal, e]⟩

/-- Normal flows, given by a standard deviation and a mean. -/
noncomputable def normalFlowOps (rng : Rng ℝ) : FlowOps ℝ d (ℝ × (Fin d → ℝ)) Unit where
  sample m k n := (splitN k n).map fun q => newUnits m.1 m.2 (rng.normal q d)
  logProb m x := -(∑ i, ((x i - m.2 i) / m.1) ^ 2) / 2 - d * Real.log m.1
  trainStep m o _ := (0, m, o)
  setStats m _ := m

theorem normalFlow_units (rng : Rng ℝ) (hs : s ≠ 0) : FlowInUnits (normalFlowOps (d := d) rng) s o (1, 0) (s, o) := by
  refine ⟨fun k n => ?_, -(d * Real.log s), fun x => ?_⟩
  · simp only [normalFlowOps, List.map_map]
    refine List.map_congr_left fun q _ => ?_
    funext i; simp [newUnits]
  · have e : ∀ i, (newUnits s o x i - o i) / s = x i := fun i => by simp only [newUnits]; field_simp; ring
    simp only [normalFlowOps, e]
    simp [sub_eq_add_neg]

/-- A bundle on the standard normal density with a standard normal flow, and the same in units ten times smaller with the origin at `-1`: the positions recorded are `10 x + 1`. -/
example (rng : Rng ℝ) (big : ℝ) (b : BundleCfg ℝ D d (ℝ × (Fin d → ℝ)) Unit) (hb : b.nTrainLoops = 0) (ht : b.logpdf = bareNormal) (hm : b.mkModel = fun _ => (1, 0)) (key : Key) (x : Pos ℝ d) (data : Data D)
    (B : Buffer ℝ) :
    ∃ S S' : Sampler ℝ D d (ℝ × (Fin d → ℝ)) Unit Unit, Sampler.new d 1 key none none none (some (malaBundle b)) [] = .ok S ∧
      Sampler.new d 1 key none none none (some (malaBundle { b with logpdf := movedNormal 10 1, stepSize := 10 * b.stepSize, mkModel := fun _ => (10, 1) })) [] = .ok S' ∧
      ((S.sample ⟨rng, normalFlowOps rng, big⟩ (.vec x) data).2.heap.res "positions_production" = some (.buffer B) →
        ∃ B', (S'.sample ⟨rng, normalFlowOps rng, big⟩ (.vec fun i => 10 * x i + 1) data).2.heap.res "positions_production" = some (.buffer B') ∧ BufIn 10 (1 : Fin d → ℝ) B B') := by
  refine ⟨_, _, rfl, rfl, fun hB => ?_⟩
  have hs : (10 : ℝ) ≠ 0 := by norm_num
  have hfl : FlowInUnits (normalFlowOps (d := d) rng) 10 1 b.flow ({ b with mkModel := fun _ => (10, 1) } : BundleCfg ℝ D d (ℝ × (Fin d → ℝ)) Unit).flow := by
    have e : b.flow = (1, 0) := by simp only [BundleCfg.flow, hm]
    rw [e]; exact normalFlow_units rng hs
  have := (C110_bundle (V := Unit) hs ⟨rng, normalFlowOps rng, big⟩ b hb (movedNormal 10 1) (fun _ => (10, 1)) (ht ▸ movedNormal_units hs) hfl d 1 key [] _ _ rfl rfl (.vec x) data).2.res "positions_production"
  rw [hB] at this
  have hp : "positions_production" ∈ positionBuffers := by simp [positionBuffers]
  generalize hr : (Sampler.heap _).res "positions_production" = r at this
  rcases r with _ | r <;> (try cases r) <;> simp only [ResIn, reduceCtorEq, Option.some.injEq] at this
  exact ⟨_, hr, this.1 hp⟩

end FlowMC
