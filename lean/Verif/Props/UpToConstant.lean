import Mathlib.Tactic.Ring
import Mathlib.Algebra.BigOperators.Group.Finset.Basic
import Verif.Jax.Ieee
import Verif.Spec.UpToConstant
import Verif.Props.Noninterference
import Verif.Model.Bundle
/-
C105: the log-density is only needed up to a constant.
-/
set_option linter.unusedSectionVars false
namespace FlowMC
open Spec

variable {D M O : Type} {d : ℕ}

/-! ### Kernels -/

theorem scanN_map {σ σ' β β' : Type} (f : σ → σ × β) (f' : σ' → σ' × β') (φ : σ → σ') (ψ : β → β') (h : ∀ s, f' (φ s) = (φ (f s).1, ψ (f s).2)) (n : ℕ) (s : σ) :
    scanN f' n (φ s) = (φ (scanN f n s).1, (scanN f n s).2.map ψ) := by
  induction n generalizing s with
  | zero => rfl
  | succ n ih => simp only [scanN, h, ih, List.map_cons]

theorem scan_map {σ α σ' α' β β' : Type} (f : σ → α → σ × β) (f' : σ' → α' → σ' × β') (φ : σ → σ') (ξ : α → α') (ψ : β → β')
    (h : ∀ s a, f' (φ s) (ξ a) = (φ (f s a).1, ψ (f s a).2)) (xs : List α) (s : σ) :
    scan f' (φ s) (xs.map ξ) = (φ (scan f s xs).1, (scan f s xs).2.map ψ) := by
  induction xs generalizing s with
  | nil => rfl
  | cons x xs ih => simp only [List.map_cons, scan, h, ih]

/-- **C105 (one step).** Adding `c` to the log-density (and to the log-density the chain carries) changes nothing about a step of GRW, MALA or HMC except the recorded log-density, which is `c` larger. -/
theorem C105_kernel (rng : Rng ℝ) (kr : KernelRes ℝ d M) (K : LocalKernel ℝ D d) (hK : kr.local? rng = some K) (c : ℝ) (t t' : Target ℝ D d) (ht : PlusConst c t t') (k : Key) (x : Pos ℝ d)
    (lp : ℝ) (data : Data D) : K k x (lp + c) t' data = logpPlus c (K k x lp t data) := by
  obtain ⟨hv, hg⟩ := ht
  cases kr with
  | grw s =>
    simp only [KernelRes.local?, Option.some.injEq] at hK
    subst hK
    have e : ∀ y : Pos ℝ d, t.val y data + c - (lp + c) = t.val y data - lp := fun y => by ring
    simp only [grwKernel, grwStep, logpPlus, e, hv]
    generalize acceptTest (F := ℝ) _ _ = a
    cases a <;> rfl
  | mala s =>
    simp only [KernelRes.local?, Option.some.injEq] at hK
    subst hK
    have e : ∀ y gx gy, malaRatio s x y gx gy (t.val x data + c) (t.val y data + c) = malaRatio s x y gx gy (t.val x data) (t.val y data) := fun y gx gy => by
      simp only [malaRatio]; ring
    simp only [malaKernel, malaStep, logpPlus, hg, hv, e]
    generalize acceptTest (F := ℝ) _ _ = a
    cases a <;> rfl
  | hmc s n metric L =>
    simp only [KernelRes.local?, Option.some.injEq] at hK
    subst hK
    have e : ∀ a b y, -(lp + c) + a - (-(t.val y data + c) + b) = -lp + a - (-(t.val y data) + b) := fun a b y => by ring
    simp only [hmcKernel, hmcStep, logpPlus, hg, hv, e]
    generalize acceptTest (F := ℝ) _ _ = a
    cases a <;> simp
  | nf m b => simp [KernelRes.local?] at hK

theorem localBody_plus (rng : Rng ℝ) (kr : KernelRes ℝ d M) (K : LocalKernel ℝ D d) (hK : kr.local? rng = some K) (c : ℝ) (t t' : Target ℝ D d) (ht : PlusConst c t t') (data : Data D)
    (n : ℕ) (k : Key) (x : Pos ℝ d) (lp : ℝ) :
    scanN (localBody K t' data) n (k, x, lp + c) =
      (((scanN (localBody K t data) n (k, x, lp)).1.1, (scanN (localBody K t data) n (k, x, lp)).1.2.1, (scanN (localBody K t data) n (k, x, lp)).1.2.2 + c),
        (scanN (localBody K t data) n (k, x, lp)).2.map (logpPlus c)) :=
  scanN_map (localBody K t data) (localBody K t' data) (fun s => (s.1, s.2.1, s.2.2 + c)) (logpPlus c) (fun s => by
    simp only [localBody, C105_kernel rng kr K hK c t t' ht]
    rfl) n (k, x, lp)

/-- **C105 (a chain of local steps).** -/
theorem C105_serial (rng : Rng ℝ) (kr : KernelRes ℝ d M) (K : LocalKernel ℝ D d) (hK : kr.local? rng = some K) (c : ℝ) (t t' : Target ℝ D d) (ht : PlusConst c t t') (data : Data D)
    (n : ℕ) (k : Key) (x : Pos ℝ d) : serialSample K t' data n k x = (serialSample K t data n k x).map (logpPlus c) := by
  unfold serialSample
  rw [ht.1, localBody_plus rng kr K hK c t t' ht]

theorem nfScan_plus (rng : Rng ℝ) (c : ℝ) (k : Key) (x : Pos ℝ d) (lp lnf : ℝ) (props : List (Pos ℝ d × ℝ × ℝ)) :
    nfScan rng k ⟨x, lp + c, lnf⟩ (props.map fun p => (p.1, p.2.1 + c, p.2.2)) = (nfScan rng k ⟨x, lp, lnf⟩ props).map (logpPlus c) := by
  unfold nfScan
  have := scan_map (fun (s : Key × NFCarry ℝ d) (p : Pos ℝ d × ℝ × ℝ) =>
      let ks := split s.1
      let r := nfBody (rng.uniform ks.2) s.2 p
      ((ks.1, r.1), r.2)) (fun (s : Key × NFCarry ℝ d) (p : Pos ℝ d × ℝ × ℝ) =>
      let ks := split s.1
      let r := nfBody (rng.uniform ks.2) s.2 p
      ((ks.1, r.1), r.2)) (fun s => (s.1, ⟨s.2.pos, s.2.logp + c, s.2.lognf⟩)) (fun p => (p.1, p.2.1 + c, p.2.2)) (logpPlus c) (fun s a => by
        have e : a.2.1 + c - (s.2.logp + c) = a.2.1 - s.2.logp := by ring
        simp only [nfBody, logpPlus, e]
        generalize acceptTest (F := ℝ) _ _ = b
        cases b <;> rfl) props (k, ⟨x, lp, lnf⟩)
  exact congrArg Prod.snd this

theorem proposedLogProbs_plus (c : ℝ) (t t' : Target ℝ D d) (ht : PlusConst c t t') (data : Data D) (batch n : ℕ) (props : List (Pos ℝ d)) :
    proposedLogProbs t' data batch n props = (proposedLogProbs t data batch n props).map (· + c) := by
  unfold proposedLogProbs
  simp only [ht.1]
  split
  · simp only [List.map_append, List.map_flatten, List.map_map, Function.comp_def]
  · simp only [List.map_map, Function.comp_def]

/-- **C105 (a sweep of flow proposals).** -/
theorem C105_group (env : Env ℝ D d M O) (m : M) (batch : ℕ) (c : ℝ) (t t' : Target ℝ D d) (ht : PlusConst c t t') (data : Data D) (n : ℕ) (k : Key) (x : Pos ℝ d) :
    groupSample env m batch t' data n k x = (groupSample env m batch t data n k x).map (List.map (logpPlus c)) := by
  unfold groupSample nfKernel
  simp only
  split
  · rfl
  · simp only [Except.map, Except.ok.injEq, proposedLogProbs_plus c t t' ht, ht.1]
    rw [← nfScan_plus]
    congr 1
    rw [List.zip_map_right, List.map_map, List.map_map]
    rfl

/-! ### Tempering -/

theorem tempered_plus (c a : ℝ) (l l' : TemperedPDF ℝ D d) (hb : PlusConst c l.base.logPdf l'.base.logPdf) (hp : PlusConst a l.logPrior l'.logPrior) (T : ℝ) :
    PlusConst (1 / T * c + a) (l.tempered T) (l'.tempered T) := by
  refine ⟨fun x data => ?_, fun x data => ?_⟩
  · simp only [TemperedPDF.tempered, LogPDF.call, hb.1, hp.1]; ring
  · simp only [TemperedPDF.tempered, hb.2, hp.2]

theorem ensembleStep_plus (rng : Rng ℝ) (kr : KernelRes ℝ d M) (K : LocalKernel ℝ D d) (hK : kr.local? rng = some K) (c a : ℝ) (l l' : TemperedPDF ℝ D d)
    (hb : PlusConst c l.base.logPdf l'.base.logPdf) (hp : PlusConst a l.logPrior l'.logPrior) (data : Data D) (n : ℕ) (k : Key) (xs : List (Pos ℝ d)) (Ts : List ℝ) :
    ensembleStep K l' data n k xs Ts = ensembleStep K l data n k xs Ts := by
  unfold ensembleStep
  congr 1
  funext b
  simp only [individualStep]
  rw [(tempered_plus c a l l' hb hp b.2.2).1, localBody_plus rng kr K hK _ _ _ (tempered_plus c a l l' hb hp b.2.2)]

theorem swapAt_listmap {α β : Type} (f : α → β) (i : ℕ) (xs : List α) : swapAt i (xs.map f) = (swapAt i xs).map f := by
  unfold swapAt
  simp only [List.getElem?_map]
  cases xs[i]? <;> cases xs[i + 1]? <;> simp [List.map_set]

theorem swapAt_listlen {α : Type} (i : ℕ) (xs : List α) : (swapAt i xs).length = xs.length := by
  unfold swapAt
  split <;> simp

theorem exchScan_plus (rng : Rng ℝ) (c : ℝ) (Ts : List ℝ) (n i : ℕ) (k : Key) (ps : List (Pos ℝ d)) (lps : List ℝ) (hl : i + n < lps.length ∨ n = 0) :
    exchScan rng Ts n i k ⟨ps, lps.map (· + c)⟩ =
      (⟨(exchScan rng Ts n i k ⟨ps, lps⟩).1.positions, (exchScan rng Ts n i k ⟨ps, lps⟩).1.logps.map (· + c)⟩, (exchScan rng Ts n i k ⟨ps, lps⟩).2) := by
  induction n generalizing i k ps lps with
  | zero => rfl
  | succ n ih =>
    have hl' : i + (n + 1) < lps.length := by omega
    have er : exchRatio Ts (lps.map (· + c)) i = exchRatio Ts lps i := by
      unfold exchRatio
      have h1 : i < lps.length := by omega
      have h2 : i + 1 < lps.length := by omega
      simp [List.getD_eq_getElem?_getD, List.getElem?_map, List.getElem?_eq_getElem h1, List.getElem?_eq_getElem h2]
    simp only [exchScan, exchBody, er, swapAt_listmap]
    have e2 : ∀ b : Bool, (if b = true then (swapAt i lps).map (· + c) else lps.map (· + c)) = (if b = true then swapAt i lps else lps).map (· + c) := by
      intro b; cases b <;> rfl
    simp only [e2]
    rw [ih _ _ _ _ (by
      left
      split
      · rw [swapAt_listlen]; omega
      · omega)]

theorem exchange_plus (rng : Rng ℝ) (c : ℝ) (l l' : TemperedPDF ℝ D d) (hb : PlusConst c l.base.logPdf l'.base.logPdf) (data : Data D) (Ts : List ℝ) (k : Key) (xs : List (Pos ℝ d)) :
    (exchange rng l' data Ts k xs).1.positions = (exchange rng l data Ts k xs).1.positions ∧ (exchange rng l' data Ts k xs).2 = (exchange rng l data Ts k xs).2 := by
  unfold exchange
  have e : xs.map (fun x => l'.call x data) = (xs.map fun x => l.call x data).map (· + c) := by
    simp only [TemperedPDF.call, LogPDF.call, hb.1, List.map_map, Function.comp_def]
  rw [e, exchScan_plus]
  · exact ⟨rfl, rfl⟩
  · simp only [List.length_map]; omega

/-! ### Resources -/

variable [BufNum ℝ] {c : ℝ} {LP LK : Set String}

section
variable {h h' : Heap ℝ D d M O}

theorem Spec.ResourcesPlus.getState (hA : ResourcesPlus c LP LK h h') (n : String) : h'.getState n = h.getState n := by
  have := hA.res n
  unfold Heap.getState Heap.get
  rcases e : h.res n with _ | r <;> rcases e' : h'.res n with _ | r' <;> (try cases r) <;> (try cases r') <;> simp_all [ResPlus]

theorem Spec.ResourcesPlus.getModel (hA : ResourcesPlus c LP LK h h') (n : String) : h'.getModel n = h.getModel n := by
  have := hA.res n
  unfold Heap.getModel Heap.get
  rcases e : h.res n with _ | r <;> rcases e' : h'.res n with _ | r' <;> (try cases r) <;> (try cases r') <;> simp_all [ResPlus]

theorem Spec.ResourcesPlus.getOptimizer (hA : ResourcesPlus c LP LK h h') (n : String) : h'.getOptimizer n = h.getOptimizer n := by
  have := hA.res n
  unfold Heap.getOptimizer Heap.get
  rcases e : h.res n with _ | r <;> rcases e' : h'.res n with _ | r' <;> (try cases r) <;> (try cases r') <;> simp_all [ResPlus]

theorem Spec.ResourcesPlus.getKernel (hA : ResourcesPlus c LP LK h h') (n : String) : h'.getKernel n = h.getKernel n := by
  have := hA.res n
  unfold Heap.getKernel Heap.get
  rcases e : h.res n with _ | r <;> rcases e' : h'.res n with _ | r' <;> (try cases r) <;> (try cases r') <;> simp_all [ResPlus]

theorem Spec.ResourcesPlus.getBuffer (hA : ResourcesPlus c LP LK h h') {n : String} (hn : n ∉ LP) : h'.getBuffer n = h.getBuffer n := by
  have := hA.res n
  unfold Heap.getBuffer Heap.get
  rcases e : h.res n with _ | r <;> rcases e' : h'.res n with _ | r' <;> (try cases r) <;> (try cases r') <;> simp_all [ResPlus]

theorem Spec.ResourcesPlus.getBuffer_lp (hA : ResourcesPlus c LP LK h h') {n : String} (hn : n ∈ LP) :
    (∃ e, h.getBuffer n = .error e ∧ h'.getBuffer n = .error e) ∨ ∃ b b', h.getBuffer n = .ok b ∧ h'.getBuffer n = .ok b' ∧ BufPlus c b b' := by
  have := hA.res n
  unfold Heap.getBuffer Heap.get
  rcases e : h.res n with _ | r <;> rcases e' : h'.res n with _ | r' <;> (try cases r) <;> (try cases r') <;> simp_all [ResPlus]

theorem Spec.ResourcesPlus.getTempered (hA : ResourcesPlus c LP LK h h') (n : String) :
    (∃ e, h.getTempered n = .error e ∧ h'.getTempered n = .error e) ∨
      ∃ l l', h.getTempered n = .ok l ∧ h'.getTempered n = .ok l' ∧ PlusConst c l.base.logPdf l'.base.logPdf ∧ ∃ a, PlusConst a l.logPrior l'.logPrior := by
  have := hA.res n
  unfold Heap.getTempered Heap.get
  rcases e : h.res n with _ | r <;> rcases e' : h'.res n with _ | r' <;> (try cases r) <;> (try cases r') <;> simp_all [ResPlus]

theorem Spec.ResourcesPlus.setPos (hA : ResourcesPlus c LP LK h h') (i : String) (n : ℕ) : ResourcesPlus c LP LK (h.setPos i n) (h'.setPos i n) := by
  refine ⟨fun j => ?_, hA.res, hA.states⟩
  simp only [Heap.setPos, hA.cursors j]

theorem Spec.ResourcesPlus.setRes (hA : ResourcesPlus c LP LK h h') (n : String) (r r' : Resource ℝ D d M O) (hr : ResPlus c (n ∈ LP) (some r) (some r'))
    (hst : ∀ st, r = .state st → ∀ key m, st.data key = some (.str m) → (m ∈ LP ↔ key ∈ LK)) : ResourcesPlus c LP LK (h.setRes n r) (h'.setRes n r') := by
  refine ⟨hA.cursors, fun m => ?_, fun m st hm => ?_⟩
  · simp only [Heap.setRes, dictSet]
    by_cases e : m = n
    · subst e; simpa using hr
    · simpa [e] using hA.res m
  · simp only [Heap.setRes, dictSet] at hm
    by_cases e : m = n
    · subst e; simp only [if_true, Option.some.injEq] at hm; exact hst st hm
    · rw [if_neg e] at hm; exact hA.states m st hm

theorem Spec.ResourcesPlus.updateBuffer (hA : ResourcesPlus c LP LK h h') {n : String} (hn : n ∉ LP) (u : NDArr ℝ) (i : Int) :
    OutcomePlus c LP LK (h.updateBuffer n u i) (h'.updateBuffer n u i) := by
  unfold Heap.updateBuffer
  rw [hA.getBuffer hn]
  cases h.getBuffer n with
  | error e => exact ⟨rfl, hA⟩
  | ok b =>
    simp only
    cases b.updateBuffer u i with
    | error e => exact ⟨rfl, hA⟩
    | ok b' => exact ⟨rfl, hA.setRes _ _ _ ⟨fun h => absurd h hn, fun _ => rfl⟩ (by simp)⟩

theorem Spec.ResourcesPlus.updateBuffer_lp (hA : ResourcesPlus c LP LK h h') {n : String} (hn : n ∈ LP) (u u' : NDArr ℝ) (hu : ArrPlus c u u') (i : Int) :
    OutcomePlus c LP LK (h.updateBuffer n u i) (h'.updateBuffer n u' i) := by
  unfold Heap.updateBuffer
  rcases hA.getBuffer_lp hn with ⟨e, e1, e2⟩ | ⟨b, b', e1, e2, hb1, hb2, hb3, hb4, hb5⟩
  · rw [e1, e2]; exact ⟨rfl, hA⟩
  · rw [e1, e2]
    simp only [Buffer.updateBuffer, dynUpdateSliceInDim, hb3, hb4, hu.1]
    by_cases h1 : b.cursorDim < b.data.shape.length
    · by_cases h2 : ShapeLE u.shape b.data.shape
      · simp only [h1, h2, if_true]
        refine ⟨rfl, hA.setRes n _ _ (show (_ ∧ _) from ⟨fun _ => ⟨hb1, hb2, rfl, rfl, fun idx => ?_⟩, fun h => absurd hn h⟩) (fun st h => by cases h)⟩
        simp only
        split
        · exact hu.2 _
        · exact hb5 _
      · simp only [h1, h2, if_true, if_false]; exact ⟨rfl, hA⟩
    · simp only [h1, if_false]; exact ⟨rfl, hA⟩

theorem outcomePlus_cases {α : Type} {r r' : PyRes ℝ D d M O α} (hr : OutcomePlus c LP LK r r') :
    (∃ e h h', r = (.error e, h) ∧ r' = (.error e, h') ∧ ResourcesPlus c LP LK h h') ∨ ∃ a h h', r = (.ok a, h) ∧ r' = (.ok a, h') ∧ ResourcesPlus c LP LK h h' := by
  obtain ⟨a, h⟩ := r
  obtain ⟨a', h'⟩ := r'
  obtain ⟨e, hA⟩ := hr
  simp only at e hA
  subst e
  cases a' with
  | error e => exact .inl ⟨e, h, h', rfl, rfl, hA⟩
  | ok a => exact .inr ⟨a, h, h', rfl, rfl, hA⟩

end

/-! ### Strategies -/

theorem mapE_plusmap {α β β' : Type} (g : β → β') (f : α → Except Err β) (f' : α → Except Err β') (hf : ∀ a, f' a = (f a).map g) (xs : List α) : mapE f' xs = (mapE f xs).map (List.map g) := by
  induction xs with
  | nil => rfl
  | cons x xs ih =>
    simp only [mapE, hf, ih]
    cases f x with
    | error e => rfl
    | ok y => cases mapE f xs <;> rfl

theorem batchedMapE_plusmap {α β β' : Type} (g : β → β') (f : α → Except Err β) (f' : α → Except Err β') (hf : ∀ a, f' a = (f a).map g) (b fuel : ℕ) (xs : List α) :
    batchedMapE f' b fuel xs = (batchedMapE f b fuel xs).map (List.map g) := by
  induction fuel generalizing xs with
  | zero => rfl
  | succ n ih =>
    simp only [batchedMapE]
    split
    · rfl
    · rw [mapE_plusmap g f f' hf, ih]
      cases mapE f (xs.take b) with
      | error e => rfl
      | ok y => cases batchedMapE f b n (xs.drop b) <;> simp [Except.map]

theorem runChains_plusmap {β β' : Type} (g : β → β') (f : Key → Pos ℝ d → Except Err β) (f' : Key → Pos ℝ d → Except Err β') (hf : ∀ k x, f' k x = (f k x).map g) (b : ℕ) (keys : List Key)
    (xs : List (Pos ℝ d)) : runChains f' b keys xs = (runChains f b keys xs).map (List.map g) := by
  unfold runChains
  simp only
  split
  · exact batchedMapE_plusmap g (fun a : Key × Pos ℝ d => f a.1 a.2) _ (fun a => hf _ _) _ _ _
  · exact mapE_plusmap g (fun a : Key × Pos ℝ d => f a.1 a.2) _ (fun a => hf _ _) _

theorem everyNth_map {α β : Type} (g : α → β) (t : ℕ) (xs : List α) : everyNth t (xs.map g) = (everyNth t xs).map g := by
  unfold everyNth
  simp only [List.length_map, List.getElem?_map, List.map_filterMap]

theorem sampler_plus (env : Env ℝ D d M O) (s : TakeSteps) (kr kr' lr lr' : Resource ℝ D d M O) (P Q : Prop) (hk : ResPlus c P (some kr) (some kr')) (hl : ResPlus c Q (some lr) (some lr'))
    (data : Data D) :
    (∃ e, s.sampler env kr lr data = .error e ∧ s.sampler env kr' lr' data = .error e) ∨
      ∃ f f', s.sampler env kr lr data = .ok f ∧ s.sampler env kr' lr' data = .ok f' ∧ ∀ k x, f' k x = (f k x).map (List.map (logpPlus c)) := by
  have ht : (lr.target? = none ∧ lr'.target? = none) ∨ ∃ t t', lr.target? = some t ∧ lr'.target? = some t' ∧ PlusConst c t t' := by
    cases lr <;> cases lr' <;> simp_all [ResPlus, Resource.target?]
  have hk' : (∃ q, kr = .kernel q ∧ kr' = .kernel q) ∨ ((∀ q, kr ≠ .kernel q) ∧ ∀ q, kr' ≠ .kernel q) := by
    cases kr <;> cases kr' <;> simp_all [ResPlus]
  rcases hk' with ⟨q, rfl, rfl⟩ | ⟨h1, h2⟩
  · rcases ht with ⟨e1, e2⟩ | ⟨t, t', e1, e2, ht⟩
    · left; exact ⟨.typeError, by simp [TakeSteps.sampler, e1], by simp [TakeSteps.sampler, e2]⟩
    · simp only [TakeSteps.sampler, e1, e2]
      cases hkind : s.kind with
      | group =>
        cases q with
        | nf m b => right; exact ⟨_, _, rfl, rfl, fun k x => C105_group env m b c t t' ht data s.nSteps k x⟩
        | _ => left; exact ⟨_, rfl, rfl⟩
      | serial =>
        cases hK : q.local? (D := D) env.rng with
        | none => left; simp only [hK]; exact ⟨_, rfl, rfl⟩
        | some K =>
          right
          simp only [hK]
          refine ⟨_, _, rfl, rfl, fun k x => ?_⟩
          rw [C105_serial env.rng q K hK c t t' ht]
          rfl
  · left
    refine ⟨.typeError, ?_, ?_⟩
    · cases kr <;> first | rfl | exact absurd rfl (h1 _)
    · cases kr' <;> first | rfl | exact absurd rfl (h2 _)

/-- A step strategy whose second buffer entry (and no other) is one of the entries that point at buffers of log-densities. -/
def Spec.RecordsLogProbs (s : TakeSteps) (LK : Set String) : Prop := ∀ i name, s.bufferNames[i]? = some name → (name ∈ LK ↔ i = 1)

theorem bufferTarget_lp {st : State} {s : TakeSteps} (hs : RecordsLogProbs s LK) (hst : ∀ key m, st.data key = some (.str m) → (m ∈ LP ↔ key ∈ LK)) {i : ℕ} {n : String}
    (h : bufferTarget st s.bufferNames i = .ok n) : n ∈ LP ↔ i = 1 := by
  unfold bufferTarget at h
  split at h
  · cases h
  · rename_i key hk
    split at h
    · cases h
    · cases h; rename_i hd; rw [hst key _ hd]; exact hs i key hk
    · cases h

theorem Spec.ResourcesPlus.get {h h' : Heap ℝ D d M O} (hA : ResourcesPlus c LP LK h h') (n : String) :
    (∃ e, h.get n = .error e ∧ h'.get n = .error e) ∨ ∃ r r', h.get n = .ok r ∧ h'.get n = .ok r' ∧ ResPlus c (n ∈ LP) (some r) (some r') := by
  have := hA.res n
  unfold Heap.get
  rcases e : h.res n with _ | r <;> rcases e' : h'.res n with _ | r' <;> (try cases r) <;> (try cases r') <;> simp_all [ResPlus]

theorem Spec.ResourcesPlus.hasBuffer {h h' : Heap ℝ D d M O} (hA : ResourcesPlus c LP LK h h') (n : String) :
    (∃ e, h.getBuffer n = .error e ∧ h'.getBuffer n = .error e) ∨ ∃ b b', h.getBuffer n = .ok b ∧ h'.getBuffer n = .ok b' := by
  by_cases hn : n ∈ LP
  · rcases hA.getBuffer_lp hn with ⟨e, h1, h2⟩ | ⟨b, b', h1, h2, -⟩
    · exact .inl ⟨e, h1, h2⟩
    · exact .inr ⟨b, b', h1, h2⟩
  · rw [hA.getBuffer hn]
    cases h.getBuffer n with
    | error e => exact .inl ⟨e, rfl, rfl⟩
    | ok b => exact .inr ⟨b, b, rfl, rfl⟩

theorem plan_plus (env : Env ℝ D d M O) (s : TakeSteps) (hs : RecordsLogProbs s LK) (k : Key) (xs : List (Pos ℝ d)) (data : Data D) (h h' : Heap ℝ D d M O)
    (hA : ResourcesPlus c LP LK h h') :
    (∃ e, s.plan env k xs data h = .error e ∧ s.plan env k xs data h' = .error e) ∨
      ∃ p, s.plan env k xs data h = .ok p ∧ s.plan env k xs data h' = .ok { p with rows := p.rows.map (List.map (logpPlus c)) } ∧ p.posName ∉ LP ∧ p.lpName ∈ LP ∧ p.accName ∉ LP := by
  unfold TakeSteps.plan
  simp only [hA.getState, bind, Except.bind]
  cases e : h.getState s.stateName with
  | error e => exact .inl ⟨_, rfl, rfl⟩
  | ok st =>
    have hst : ∀ key m, st.data key = some (.str m) → (m ∈ LP ↔ key ∈ LK) := by
      refine hA.states s.stateName st ?_
      simp only [Heap.getState, Heap.get] at e
      cases er : h.res s.stateName with
      | none => rw [er] at e; cases e
      | some r => rw [er] at e; cases r <;> simp_all
    simp only
    cases e0 : bufferTarget st s.bufferNames 0 with
    | error e => exact .inl ⟨_, rfl, rfl⟩
    | ok n0 =>
    cases e1 : bufferTarget st s.bufferNames 1 with
    | error e => exact .inl ⟨_, rfl, rfl⟩
    | ok n1 =>
    cases e2 : bufferTarget st s.bufferNames 2 with
    | error e => exact .inl ⟨_, rfl, rfl⟩
    | ok n2 =>
    have m0 : n0 ∉ LP := fun hn => by simpa using (bufferTarget_lp hs hst e0).1 hn
    have m1 : n1 ∈ LP := (bufferTarget_lp hs hst e1).2 rfl
    have m2 : n2 ∉ LP := fun hn => by simpa using (bufferTarget_lp hs hst e2).1 hn
    simp only
    rcases hA.hasBuffer n0 with ⟨e, g0, g0'⟩ | ⟨_, _, g0, g0'⟩
    · rw [g0, g0']; exact .inl ⟨_, rfl, rfl⟩
    rcases hA.hasBuffer n1 with ⟨e, g1, g1'⟩ | ⟨_, _, g1, g1'⟩
    · rw [g0, g0', g1, g1']; exact .inl ⟨_, rfl, rfl⟩
    rcases hA.hasBuffer n2 with ⟨e, g2, g2'⟩ | ⟨_, _, g2, g2'⟩
    · rw [g0, g0', g1, g1', g2, g2']; exact .inl ⟨_, rfl, rfl⟩
    rw [g0, g0', g1, g1', g2, g2']
    simp only
    rcases hA.get s.kernelName with ⟨e, gk, gk'⟩ | ⟨kr, kr', gk, gk', hk⟩
    · rw [gk, gk']; exact .inl ⟨_, rfl, rfl⟩
    rcases hA.get s.logpdfName with ⟨e, gl, gl'⟩ | ⟨lr, lr', gl, gl', hl⟩
    · rw [gk, gk', gl, gl']; exact .inl ⟨_, rfl, rfl⟩
    rw [gk, gk', gl, gl']
    simp only
    rcases sampler_plus env s kr kr' lr lr' _ _ hk hl data with ⟨e, f1, f2⟩ | ⟨f, f', f1, f2, hf⟩
    · rw [f1, f2]; exact .inl ⟨_, rfl, rfl⟩
    rw [f1, f2]
    simp only [runChains_plusmap (List.map (logpPlus c)) f f' hf]
    cases runChains f s.chainBatchSize (splitN (split k).2 xs.length) xs with
    | error e => exact .inl ⟨_, rfl, rfl⟩
    | ok rows =>
      simp only [Except.map]
      by_cases ht : s.thinning = 0
      · simp only [ht, if_true]; exact .inl ⟨_, rfl, rfl⟩
      · simp only [ht, if_false]
        refine .inr ⟨_, rfl, ?_, m0, m1, m2⟩
        simp only [List.map_map, Function.comp_def, everyNth_map]

theorem lpArr_plus (n m : ℕ) (rows : List (List (StepOut ℝ d))) : ArrPlus c (lpArr n m rows) (lpArr n m (rows.map (List.map (logpPlus c)))) := by
  refine ⟨rfl, fun idx => ?_⟩
  unfold lpArr arr2
  match idx with
  | [] => exact .inr ⟨rfl, rfl⟩
  | [_] => exact .inr ⟨rfl, rfl⟩
  | _ :: _ :: _ :: _ => exact .inr ⟨rfl, rfl⟩
  | [i, j] =>
    simp only [List.getElem?_map, Option.map_map]
    cases rows[i]? with
    | none => exact .inr ⟨rfl, rfl⟩
    | some r =>
      simp only [Option.map_some, Option.bind_some, Function.comp, List.getElem?_map]
      cases r[j]? with
      | none => exact .inr ⟨rfl, rfl⟩
      | some o => exact .inl rfl

theorem lastRows_plus (rows : List (List (StepOut ℝ d))) : lastRows (rows.map (List.map (logpPlus c))) = lastRows rows := by
  unfold lastRows
  induction rows with
  | nil => rfl
  | cons r rows ih =>
    simp only [List.map_cons, mapE, ih, List.getLast?_map]
    cases r.getLast? <;> rfl

/-- **C105 (step strategies).** Calling a step strategy with a log-density that differs by a constant gives the same key, the same positions or the same exception; all resources it leaves are the
same, except that the log-densities it records differ by that constant. -/
theorem C105_take_steps (env : Env ℝ D d M O) (s : TakeSteps) (hs : RecordsLogProbs s LK) (k : Key) (xs : List (Pos ℝ d)) (data : Data D) (h h' : Heap ℝ D d M O)
    (hA : ResourcesPlus c LP LK h h') : OutcomePlus c LP LK (s.run env k xs data h) (s.run env k xs data h') := by
  unfold TakeSteps.run
  rcases plan_plus env s hs k xs data h h' hA with ⟨e, e1, e2⟩ | ⟨p, e1, e2, m0, m1, m2⟩
  · rw [e1, e2]; exact ⟨rfl, hA⟩
  rw [e1, e2]
  simp only [TakeSteps.commit, hA.cursors]
  have ep : posArr xs.length s.nRows (p.rows.map (List.map (logpPlus c))) = posArr xs.length s.nRows p.rows := by
    simp only [posArr, List.map_map, Function.comp_def, logpPlus]
  have ea : accArr xs.length s.nRows (p.rows.map (List.map (logpPlus c))) = accArr xs.length s.nRows p.rows := by
    simp only [accArr, List.map_map, Function.comp_def, logpPlus]
  rw [ep, ea, lastRows_plus]
  rcases outcomePlus_cases (hA.updateBuffer m0 (posArr xs.length s.nRows p.rows) ((h.pos s.ident : ℕ) : ℤ)) with ⟨er, h1, h1', e1, e1', hA1⟩ | ⟨_, h1, h1', e1, e1', hA1⟩
  · simp only [e1, e1']; exact ⟨rfl, hA1⟩
  simp only [e1, e1']
  rcases outcomePlus_cases (hA1.updateBuffer_lp m1 _ _ (lpArr_plus (c := c) xs.length s.nRows p.rows) ((h.pos s.ident : ℕ) : ℤ)) with ⟨er, h2, h2', e2, e2', hA2⟩ | ⟨_, h2, h2', e2, e2', hA2⟩
  · simp only [e2, e2']; exact ⟨rfl, hA2⟩
  simp only [e2, e2']
  rcases outcomePlus_cases (hA2.updateBuffer m2 (accArr xs.length s.nRows p.rows) ((h.pos s.ident : ℕ) : ℤ)) with ⟨er, h3, h3', e3, e3', hA3⟩ | ⟨_, h3, h3', e3, e3', hA3⟩
  · simp only [e3, e3']; exact ⟨rfl, hA3⟩
  simp only [e3, e3', hA3.cursors]
  cases lastRows p.rows with
  | error er => exact ⟨rfl, hA3.setPos _ _⟩
  | ok xs => exact ⟨rfl, hA3.setPos _ _⟩

/-- **C105 (training).** `TrainModel` never sees a log-density: it trains the same model on the same rows. -/
theorem C105_train_model (env : Env ℝ D d M O) (s : TrainModel) (hd : s.dataName ∉ LP) (hl : s.lossBufferName ∉ LP) (k : Key) (xs : List (Pos ℝ d)) (h h' : Heap ℝ D d M O)
    (hA : ResourcesPlus c LP LK h h') : OutcomePlus c LP LK (s.run env k xs h) (s.run env k xs h') := by
  unfold TrainModel.run TrainModel.plan
  rw [hA.getModel, hA.getBuffer hd, hA.getOptimizer]
  split
  · exact ⟨rfl, hA⟩
  · rename_i r hr
    have : OutcomePlus c LP LK (recordLosses s.lossBufferName r.losses h) (recordLosses s.lossBufferName r.losses h') := by
      unfold recordLosses
      by_cases hn : s.lossBufferName = ""
      · simp only [hn, if_true]; exact ⟨rfl, hA⟩
      · simp only [hn, if_false, hA.getBuffer hl]
        cases h.getBuffer s.lossBufferName with
        | error e => exact ⟨rfl, hA⟩
        | ok b =>
          simp only
          cases b.updateBuffer (arr1 BufNum.negInf r.losses) (b.cursor : ℕ) with
          | error e => exact ⟨rfl, hA⟩
          | ok b' => exact ⟨rfl, hA.setRes _ _ _ ⟨fun h => absurd h hl, fun _ => rfl⟩ (fun st h => by cases h)⟩
    rcases outcomePlus_cases this with ⟨er, h1, h1', e1, e1', hA1⟩ | ⟨_, h1, h1', e1, e1', hA1⟩
    · simp only [e1, e1']; exact ⟨rfl, hA1⟩
    · simp only [e1, e1']
      refine ⟨rfl, (hA1.setRes s.modelName (.model r.model) (.model r.model) rfl (fun st h => by cases h)).setRes s.optimizerName (.optimizer r.state) (.optimizer r.state) rfl (fun st h => by cases h)⟩

/-- The values an `UpdateState` strategy stores keep the rule which entries point at buffers of log-densities. -/
def Spec.KeepsEntries (s : UpdateState) (LP LK : Set String) : Prop := ∀ p ∈ s.keys.zip s.values, ∀ m, p.2 = .str m → (m ∈ LP ↔ p.1 ∈ LK)

theorem update_entries (st : State) (keys : List String) (values : List SVal) (hs : ∀ p ∈ keys.zip values, ∀ m, p.2 = SVal.str m → (m ∈ LP ↔ p.1 ∈ LK))
    (hst : ∀ key m, st.data key = some (.str m) → (m ∈ LP ↔ key ∈ LK)) : ∀ key m, (st.update keys values).data key = some (.str m) → (m ∈ LP ↔ key ∈ LK) := by
  unfold State.update
  simp only
  generalize keys.zip values = ps at hs
  generalize st.data = dd at hst
  induction ps generalizing dd with
  | nil => exact hst
  | cons p ps ih =>
    refine ih (fun q hq => hs q (List.mem_cons_of_mem _ hq)) _ (fun key m hm => ?_)
    simp only [dictSet] at hm
    by_cases e : key = p.1
    · subst e
      simp only [if_true, Option.some.injEq] at hm
      exact hs p List.mem_cons_self m hm
    · rw [if_neg e] at hm; exact hst key m hm

/-- **C105 (state updates).** -/
theorem C105_update_state (s : UpdateState) (hs : KeepsEntries s LP LK) (k : Key) (xs : List (Pos ℝ d)) (h h' : Heap ℝ D d M O) (hA : ResourcesPlus c LP LK h h') :
    OutcomePlus c LP LK (s.run k xs h) (s.run k xs h') := by
  unfold UpdateState.run
  rw [hA.getState]
  cases e : h.getState s.stateName with
  | error e => exact ⟨rfl, hA⟩
  | ok st =>
    have hst : ∀ key m, st.data key = some (.str m) → (m ∈ LP ↔ key ∈ LK) := by
      refine hA.states s.stateName st ?_
      simp only [Heap.getState, Heap.get] at e
      cases er : h.res s.stateName with
      | none => rw [er] at e; cases e
      | some r => rw [er] at e; cases r <;> simp_all
    exact ⟨rfl, hA.setRes _ _ _ rfl (fun st' h => by cases h; exact update_entries st _ _ hs hst)⟩

/-- **C105 (tempering).** The steps at every temperature, the exchanges and the adaptation of the temperatures are the same when a constant is added to the likelihood (and another one to the prior). -/
theorem C105_tempering (env : Env ℝ D d M O) (s : ParallelTempering) (hb : ∀ n ∈ s.bufferNames, n ∉ LP) (k : Key) (xs : List (Pos ℝ d)) (data : Data D) (h h' : Heap ℝ D d M O)
    (hA : ResourcesPlus c LP LK h h') : OutcomePlus c LP LK (s.run env k xs data h) (s.run env k xs data h') := by
  have mem : ∀ i n, nthName s.bufferNames i = .ok n → n ∉ LP := by
    intro i n hn
    unfold nthName at hn
    split at hn
    · cases hn; exact hb _ (List.mem_of_getElem? ‹_›)
    · cases hn
  have key : s.plan env k xs data h' = s.plan env k xs data h ∧ ∀ p, s.plan env k xs data h = .ok p → p.posName ∉ LP ∧ p.tempName ∉ LP := by
    unfold ParallelTempering.plan
    simp only [hA.getKernel, hA.getState, bind, Except.bind]
    cases h.getKernel s.kernelName with
    | error e => exact ⟨rfl, fun p hp => by cases hp⟩
    | ok kr =>
      simp only
      rcases hA.getTempered s.temperedLogpdfName with ⟨e, g, g'⟩ | ⟨l, l', g, g', hl, a, hp⟩
      · rw [g, g']; exact ⟨rfl, fun p hp => by cases hp⟩
      rw [g, g']
      simp only
      cases e0 : nthName s.bufferNames 0 with
      | error e => exact ⟨rfl, fun p hp => by cases hp⟩
      | ok n0 =>
        simp only [hA.getBuffer (mem _ _ e0)]
        cases h.getBuffer n0 with
        | error e => exact ⟨rfl, fun p hp => by cases hp⟩
        | ok pb =>
          simp only
          cases e1 : nthName s.bufferNames 1 with
          | error e => exact ⟨rfl, fun p hp => by cases hp⟩
          | ok n1 =>
            simp only [hA.getBuffer (mem _ _ e1)]
            refine ⟨?_, fun p hp => ?_⟩
            · cases h.getBuffer n1 with
              | error e => rfl
              | ok tb =>
                simp only
                cases h.getState s.stateName with
                | error e => rfl
                | ok st =>
                  simp only
                  cases hK : kr.local? (D := D) env.rng with
                  | none => rfl
                  | some K =>
                    rcases pb.data.shape with _ | ⟨n1, _ | ⟨n2, _ | ⟨n3, _ | ⟨n4, q⟩⟩⟩⟩ <;> rcases tb.data.shape with _ | ⟨m1, _ | ⟨m2, q'⟩⟩ <;> try rfl
                    simp only [ensembleStep_plus env.rng kr K hK c a l l' hl hp, (exchange_plus env.rng c l l' hl data _ _ _).1, (exchange_plus env.rng c l l' hl data _ _ _).2,
                      List.map_map, Function.comp_def]
            · have : p.posName = n0 ∧ p.tempName = n1 := by
                split at hp <;> try cases hp
                split at hp <;> try cases hp
                split at hp <;> try cases hp
                split at hp <;> try cases hp
                split at hp <;> cases hp
                exact ⟨rfl, rfl⟩
              rw [this.1, this.2]
              exact ⟨mem _ _ e0, mem _ _ e1⟩
  unfold ParallelTempering.run
  rw [key.1]
  cases ep : s.plan env k xs data h with
  | error er => exact ⟨rfl, hA⟩
  | ok p =>
    obtain ⟨m0, m1⟩ := key.2 p ep
    simp only
    split
    · rcases outcomePlus_cases (hA.updateBuffer m0 (arr3 BufNum.negInf xs.length (p.newTemps.length - 1) (p.positions.map (·.tail))) 0) with ⟨er, h1, h1', e1, e1', hA1⟩ | ⟨_, h1, h1', e1, e1', hA1⟩
      · simp only [e1, e1']; exact ⟨rfl, hA1⟩
      simp only [e1, e1']
      rcases outcomePlus_cases (hA1.updateBuffer m1 (arr1 BufNum.negInf p.newTemps) 0) with ⟨er, h2, h2', e2, e2', hA2⟩ | ⟨_, h2, h2', e2, e2', hA2⟩
      · simp only [e2, e2']; exact ⟨rfl, hA2⟩
      · simp only [e2, e2']; exact ⟨rfl, hA2⟩
    · exact ⟨rfl, hA⟩

/-! ### Sequences, `sample` and the bundles -/

/-- A strategy that cannot tell log-densities that differ by a constant apart. -/
def Spec.IgnoresConst (c : ℝ) (LP LK : Set String) (env : Env ℝ D d M O) (data : Data D) (s : Strategy ℝ D d M O) : Prop :=
  ∀ k xs h h', ResourcesPlus c LP LK h h' → OutcomePlus c LP LK (s.run env k xs data h) (s.run env k xs data h')

/-- **C105 (sequences).** -/
theorem C105_sequence (env : Env ℝ D d M O) (strats : String → Option (Strategy ℝ D d M O)) (data : Data D) (names : List String)
    (hI : ∀ name ∈ names, ∀ s, strats name = some s → IgnoresConst c LP LK env data s) (k : Key) (xs : List (Pos ℝ d)) (h h' : Heap ℝ D d M O) (hA : ResourcesPlus c LP LK h h') :
    OutcomePlus c LP LK (runOrder env strats names k xs data h) (runOrder env strats names k xs data h') := by
  induction names generalizing k xs h h' with
  | nil => exact ⟨rfl, hA⟩
  | cons a as ih =>
    unfold runOrder
    cases hs : strats a with
    | none => exact ⟨rfl, hA⟩
    | some s =>
      simp only
      rcases outcomePlus_cases (hI a List.mem_cons_self s hs k xs h h' hA) with ⟨er, g, g', e1, e1', hA1⟩ | ⟨⟨k1, xs1⟩, g, g', e1, e1', hA1⟩
      · simp only [e1, e1']; exact ⟨rfl, hA1⟩
      · simp only [e1, e1']
        exact ih (fun n hn => hI n (List.mem_cons_of_mem _ hn)) k1 xs1 g g' hA1

theorem ignores_reset (env : Env ℝ D d M O) (data : Data D) : IgnoresConst c LP LK env data (.lambda resetSteppers) := fun k xs h h' hA => by
  simp only [Strategy.run, runLambda, resetSteppers]
  exact ⟨rfl, (hA.setPos _ _).setPos _ _⟩

theorem ignores_global (env : Env ℝ D d M O) (data : Data D) : IgnoresConst c LP LK env data (.lambda updateGlobalStep) := fun k xs h h' hA => by
  simp only [Strategy.run, runLambda, updateGlobalStep, hA.cursors]
  exact ⟨rfl, hA.setPos _ _⟩

theorem ignores_local (env : Env ℝ D d M O) (data : Data D) : IgnoresConst c LP LK env data (.lambda updateLocalStep) := fun k xs h h' hA => by
  simp only [Strategy.run, runLambda, updateLocalStep, hA.cursors]
  exact ⟨rfl, hA.setPos _ _⟩

theorem updateModel_bad (k : Key) (xs : List (Pos ℝ d)) (data : Data D) (h : Heap ℝ D d M O) (r q : Resource ℝ D d M O) (h1 : h.res "model" = some r) (h2 : h.res "global_sampler" = some q)
    (hb : (∀ m, r ≠ .model m) ∨ ∀ m b, q ≠ .kernel (.nf m b)) : updateModel k xs data h = (.error .typeError, h) := by
  unfold updateModel
  rw [h1, h2]
  split
  · rename_i e; cases e
  · rename_i e _; cases e
  · rename_i e1 e2
    cases e1; cases e2
    rcases hb with hb | hb
    · exact absurd rfl (hb _)
    · exact absurd rfl (hb _ _)
  · rfl

theorem ignores_model (env : Env ℝ D d M O) (data : Data D) : IgnoresConst c LP LK env data (.lambda updateModel) := fun k xs h h' hA => by
  have h1 := hA.res "model"
  have h2 := hA.res "global_sampler"
  simp only [Strategy.run, runLambda]
  rcases e : h.res "model" with _ | r <;> rcases e' : h'.res "model" with _ | r' <;> rw [e, e'] at h1
  · simp only [updateModel, e, e']; exact ⟨rfl, hA⟩
  · cases r' <;> simp [ResPlus] at h1
  · cases r <;> simp [ResPlus] at h1
  rcases f : h.res "global_sampler" with _ | q <;> rcases f' : h'.res "global_sampler" with _ | q' <;> rw [f, f'] at h2
  · simp only [updateModel, e, e', f, f']; exact ⟨rfl, hA⟩
  · cases q' <;> simp [ResPlus] at h2
  · cases q <;> simp [ResPlus] at h2
  have a1 : (∃ m, r = .model m ∧ r' = .model m) ∨ ((∀ m, r ≠ .model m) ∧ ∀ m, r' ≠ .model m) := by cases r <;> cases r' <;> simp_all [ResPlus]
  have a2 : (∃ m, q = .kernel m ∧ q' = .kernel m) ∨ ((∀ m, q ≠ .kernel m) ∧ ∀ m, q' ≠ .kernel m) := by cases q <;> cases q' <;> simp_all [ResPlus]
  rcases a1 with ⟨m, rfl, rfl⟩ | ⟨b1, b2⟩
  · rcases a2 with ⟨kr, rfl, rfl⟩ | ⟨b3, b4⟩
    · cases kr with
      | nf m' b =>
        simp only [updateModel, e, e', f, f']
        exact ⟨rfl, hA.setRes "global_sampler" (.kernel (.nf m b)) (.kernel (.nf m b)) rfl (fun st h => by cases h)⟩
      | _ =>
        rw [updateModel_bad k xs data h _ _ e f (.inr (by simp)), updateModel_bad k xs data h' _ _ e' f' (.inr (by simp))]
        exact ⟨rfl, hA⟩
    · rw [updateModel_bad k xs data h _ _ e f (.inr fun m b => b3 _), updateModel_bad k xs data h' _ _ e' f' (.inr fun m b => b4 _)]
      exact ⟨rfl, hA⟩
  · rw [updateModel_bad k xs data h _ _ e f (.inl b1), updateModel_bad k xs data h' _ _ e' f' (.inl b2)]
    exact ⟨rfl, hA⟩

theorem ignores_init (env : Env ℝ D d M O) (data : Data D) (p : PTCfg ℝ D d) (hn : "tempered_positions" ∉ LP) : IgnoresConst c LP LK env data (.lambda (initTempered p)) := fun k xs h h' hA => by
  simp only [Strategy.run, runLambda, initTempered]
  rcases outcomePlus_cases (hA.updateBuffer hn (arr3 BufNum.negInf xs.length (p.nTemps - 1) (xs.map (fun x => List.replicate (p.nTemps - 1) x))) 0) with
    ⟨er, g, g', e1, e1', hA1⟩ | ⟨_, g, g', e1, e1', hA1⟩
  · simp only [e1, e1']; exact ⟨rfl, hA1⟩
  · simp only [e1, e1']; exact ⟨rfl, hA1⟩

/-- The buffers in which the bundles record log-densities. -/
def Spec.logProbBuffers : Set String := {"log_prob_training", "log_prob_production"}

/-- The entry of the bundles' state that points at the buffer of log-densities in use. -/
def Spec.logProbEntries : Set String := {"target_log_prob"}

theorem records_local (b : BundleCfg ℝ D d M O) : RecordsLogProbs (localStepper b) logProbEntries := by
  intro i name hi
  simp only [localStepper] at hi
  match i with
  | 0 => simp at hi; subst hi; simp [logProbEntries]
  | 1 => simp at hi; subst hi; simp [logProbEntries]
  | 2 => simp at hi; subst hi; simp [logProbEntries]
  | n + 3 => simp at hi

theorem records_global (b : BundleCfg ℝ D d M O) : RecordsLogProbs (globalStepper b) logProbEntries := by
  intro i name hi
  simp only [globalStepper] at hi
  match i with
  | 0 => simp at hi; subst hi; simp [logProbEntries]
  | 1 => simp at hi; subst hi; simp [logProbEntries]
  | 2 => simp at hi; subst hi; simp [logProbEntries]
  | n + 3 => simp at hi

theorem keeps_entries : KeepsEntries updateStateStrat logProbBuffers logProbEntries := by
  intro p hp m hm
  simp only [updateStateStrat, List.zip_cons_cons, List.zip_nil_right, List.mem_cons, List.not_mem_nil, or_false] at hp
  rcases hp with rfl | rfl | rfl | rfl | rfl <;> simp_all [logProbBuffers, logProbEntries] <;> subst hm <;> decide

theorem bundle_ignores (env : Env ℝ D d M O) (data : Data D) (b : BundleCfg ℝ D d M O) (name : String) (s : Strategy ℝ D d M O) (hs : (bundleStrategies b).lookup name = some s) :
    IgnoresConst c logProbBuffers logProbEntries env data s := by
  simp only [bundleStrategies] at hs
  split at hs <;> simp only [Option.some.injEq, reduceCtorEq] at hs <;> subst hs
  · exact fun k xs h h' hA => C105_take_steps env _ (records_local b) k xs data h h' hA
  · exact fun k xs h h' hA => C105_take_steps env _ (records_global b) k xs data h h' hA
  · exact fun k xs h h' hA => C105_train_model env _ (by simp [modelTrainer, logProbBuffers]) (by simp [modelTrainer, logProbBuffers]) k xs h h' hA
  · exact fun k xs h h' hA => C105_update_state _ keeps_entries k xs h h' hA
  · exact ignores_global env data
  · exact ignores_local env data
  · exact ignores_reset env data
  · exact ignores_model env data

theorem pt_ignores (env : Env ℝ D d M O) (data : Data D) (b : BundleCfg ℝ D d M O) (p : PTCfg ℝ D d) (name : String) (s : Strategy ℝ D d M O) (hs : (ptStrategies b p).lookup name = some s) :
    IgnoresConst c logProbBuffers logProbEntries env data s := by
  simp only [ptStrategies] at hs
  split at hs
  · simp only [Option.some.injEq] at hs; subst hs
    exact fun k xs h h' hA => C105_tempering env _ (by simp [ptStrat, logProbBuffers]) k xs data h h' hA
  · simp only [Option.some.injEq] at hs; subst hs
    exact ignores_init env data p (by simp [logProbBuffers])
  · simp only [Option.some.injEq] at hs; subst hs
    exact fun k xs h h' hA => C105_train_model env _ (by simp [modelTrainer, logProbBuffers]) (by simp [modelTrainer, logProbBuffers]) k xs h h' hA
  · exact bundle_ignores env data b name s hs

theorem initialState_entries (key m : String) (h : initialState.data key = some (.str m)) : m ∈ logProbBuffers ↔ key ∈ logProbEntries := by
  simp only [initialState, State.new] at h
  split at h <;> simp at h <;> subst h <;> simp_all [logProbBuffers, logProbEntries]

theorem bundleResources_plus (b : BundleCfg ℝ D d M O) (t' : Target ℝ D d) (ht : PlusConst c b.logpdf t') (n : String) :
    ResPlus c (n ∈ logProbBuffers) (bundleResources b n) (bundleResources { b with logpdf := t' } n) := by
  have hb : ∀ (nm : String) (sh : List ℕ) (cd : ℕ) (P : Prop), ResPlus (D := D) (d := d) (M := M) (O := O) c P (some (.buffer (Buffer.new nm sh cd))) (some (.buffer (Buffer.new nm sh cd))) :=
    fun nm sh cd P => ⟨fun _ => ⟨rfl, rfl, rfl, rfl, fun _ => .inr ⟨rfl, rfl⟩⟩, fun _ => rfl⟩
  unfold bundleResources
  split <;> first | exact hb _ _ _ _ | exact ⟨ht, rfl⟩ | rfl

theorem bundleResources_states (b : BundleCfg ℝ D d M O) (n : String) (st : State) (h : bundleResources b n = some (.state st)) : st = initialState := by
  unfold bundleResources at h
  split at h <;> simp at h
  exact h.symm

/-- What C105 says about the resources left by two runs whose log-densities differ by `c`. -/
def Spec.SameRunUpTo (c : ℝ) (h h' : Heap ℝ D d M O) : Prop :=
  (∀ n ∉ logProbBuffers, ∀ q : Resource ℝ D d M O, (∀ l, q ≠ .logpdf l) → (∀ l, q ≠ .tempered l) → (h.res n = some q ↔ h'.res n = some q)) ∧
  ∀ n ∈ logProbBuffers, ∀ b, h.res n = some (.buffer b) → ∃ b', h'.res n = some (.buffer b') ∧ BufPlus c b b'

theorem sameRunUpTo_of {h h' : Heap ℝ D d M O} (hA : ResourcesPlus c logProbBuffers LK h h') : SameRunUpTo c h h' := by
  refine ⟨fun n hn q h1 h2 => ?_, fun n hn b hb => ?_⟩
  · have := hA.res n
    rcases e : h.res n with _ | r <;> rcases e' : h'.res n with _ | r' <;> (try cases r) <;> (try cases r') <;> simp_all [ResPlus] <;> constructor <;> rintro rfl <;> simp_all
  · have := hA.res n
    rw [hb] at this
    rcases e' : h'.res n with _ | r' <;> (try cases r') <;> simp_all [ResPlus]

theorem sample_plus {V : Type} (env : Env ℝ D d M O) (s s' : Sampler ℝ D d M O V) (hstr : s'.strategies = s.strategies) (hord : s'.strategyOrder = s.strategyOrder) (hkey : s'.rngKey = s.rngKey)
    (data : Data D) (hI : ∀ name st, s.strategies name = some st → IgnoresConst c LP LK env data st) (hA : ResourcesPlus c LP LK s.heap s'.heap) (init : InitPos ℝ d) :
    (s'.sample env init data).1 = (s.sample env init data).1 ∧ ResourcesPlus c LP LK (s.sample env init data).2.heap (s'.sample env init data).2.heap := by
  unfold Sampler.sample
  rw [hord]
  cases s.strategyOrder with
  | none => exact ⟨rfl, hA⟩
  | some order =>
    simp only [hstr, hkey]
    rcases outcomePlus_cases (C105_sequence env s.strategies data order (fun name _ st hst => hI name st hst) s.rngKey init.atleast2d s.heap s'.heap hA) with
      ⟨er, g, g', e1, e1', hA1⟩ | ⟨_, g, g', e1, e1', hA1⟩
    · rw [e1, e1']; exact ⟨rfl, hA1⟩
    · rw [e1, e1']; exact ⟨rfl, hA1⟩

/-- **C105 (the plain bundle).** Adding a constant to the log-density does not change a run: `sample` returns or raises the same, every position, acceptance flag and loss recorded, the trained
flow, the optimiser and the state are the same, and every recorded log-density differs by the constant. -/
theorem C105_bundle {V : Type} (env : Env ℝ D d M O) (b : BundleCfg ℝ D d M O) (t' : Target ℝ D d) (c : ℝ) (ht : PlusConst c b.logpdf t') (nd nc : ℕ) (key : Key) (kw : List (String × V))
    (s s' : Sampler ℝ D d M O V) (hs : Sampler.new nd nc key none none none (some (malaBundle b)) kw = .ok s)
    (hs' : Sampler.new nd nc key none none none (some (malaBundle { b with logpdf := t' })) kw = .ok s') (init : InitPos ℝ d) (data : Data D) :
    (s'.sample env init data).1 = (s.sample env init data).1 ∧ SameRunUpTo c (s.sample env init data).2.heap (s'.sample env init data).2.heap := by
  simp only [Sampler.new, Except.ok.injEq] at hs hs'
  subst hs hs'
  have := sample_plus (c := c) (LP := logProbBuffers) (LK := logProbEntries) env
    { nDim := nd, nChains := nc, rngKey := key, heap := ⟨bundleResources b, fun _ => 0⟩, strategies := (bundleStrategies b).lookup, strategyOrder := some (bundleOrder b), attrs := setAttrs kw fun _ => none }
    { nDim := nd, nChains := nc, rngKey := key, heap := ⟨bundleResources { b with logpdf := t' }, fun _ => 0⟩, strategies := (bundleStrategies b).lookup, strategyOrder := some (bundleOrder b),
      attrs := setAttrs kw fun _ => none } rfl rfl rfl data (fun name st hst => bundle_ignores env data b name st hst)
    ⟨fun _ => rfl, fun n => bundleResources_plus b t' ht n, fun n st hn => by rw [bundleResources_states b n st hn]; exact initialState_entries⟩ init
  exact ⟨this.1, sameRunUpTo_of this.2⟩

/-- **C105 (the tempering bundle).** The same with parallel tempering, where also the prior may be changed by a constant of its own. -/
theorem C105_pt_bundle {V : Type} (env : Env ℝ D d M O) (b : BundleCfg ℝ D d M O) (p : PTCfg ℝ D d) (t' g' : Target ℝ D d) (c a : ℝ) (ht : PlusConst c b.logpdf t') (hg : PlusConst a p.logprior g')
    (nd nc : ℕ) (key : Key) (kw : List (String × V)) (s s' : Sampler ℝ D d M O V) (hs : Sampler.new nd nc key none none none (some (ptBundle b p)) kw = .ok s)
    (hs' : Sampler.new nd nc key none none none (some (ptBundle { b with logpdf := t' } { p with logprior := g' })) kw = .ok s') (init : InitPos ℝ d) (data : Data D) :
    (s'.sample env init data).1 = (s.sample env init data).1 ∧ SameRunUpTo c (s.sample env init data).2.heap (s'.sample env init data).2.heap := by
  simp only [Sampler.new, Except.ok.injEq] at hs hs'
  subst hs hs'
  have := sample_plus (c := c) (LP := logProbBuffers) (LK := logProbEntries) env
    { nDim := nd, nChains := nc, rngKey := key, heap := ⟨ptResources b p, fun _ => 0⟩, strategies := (ptStrategies b p).lookup, strategyOrder := some (ptOrder b), attrs := setAttrs kw fun _ => none }
    { nDim := nd, nChains := nc, rngKey := key, heap := ⟨ptResources { b with logpdf := t' } { p with logprior := g' }, fun _ => 0⟩, strategies := (ptStrategies b p).lookup,
      strategyOrder := some (ptOrder b), attrs := setAttrs kw fun _ => none } rfl rfl rfl data (fun name st hst => pt_ignores env data b p name st hst)
    ⟨fun _ => rfl, fun n => by
      show ResPlus c _ (ptResources b p n) (ptResources { b with logpdf := t' } { p with logprior := g' } n)
      unfold ptResources
      split
      · exact ⟨ht, rfl, a, hg⟩
      · exact ⟨fun h => by simp [logProbBuffers] at h, fun _ => rfl⟩
      · exact ⟨fun h => by simp [logProbBuffers] at h, fun _ => rfl⟩
      · exact bundleResources_plus b t' ht n,
    fun n st hn => by
      have : st = initialState := by
        have hn' : ptResources b p n = some (.state st) := hn
        unfold ptResources at hn'
        split at hn' <;> try cases hn'
        exact bundleResources_states b n st hn'
      rw [this]; exact initialState_entries⟩ init
  exact ⟨this.1, sameRunUpTo_of this.2⟩

omit [BufNum ℝ] in
/-- **C105 (optimisation).** `AdamOptimization.optimize` finds the same points; the log-densities it returns differ by the constant. -/
theorem C105_optimize (rng : Rng ℝ) (a : AdamOptimization ℝ D d) (t' : Target ℝ D d) (c : ℝ) (ht : PlusConst c a.logpdf t') (data : Data D) (k : Key) (xs : List (Pos ℝ d)) :
    ({ a with logpdf := t' } : AdamOptimization ℝ D d).optimize rng data k xs = (a.optimize rng data k xs).map fun r => (r.1, r.2.1, r.2.2.map (· + c)) := by
  have e : ({ a with logpdf := t' } : AdamOptimization ℝ D d).single rng data = a.single rng data := by
    funext k x
    unfold AdamOptimization.single
    have : ({ a with logpdf := t' } : AdamOptimization ℝ D d).kernel rng data = a.kernel rng data := by
      funext s
      simp only [AdamOptimization.kernel, ht.2]
    rw [this]
  unfold AdamOptimization.optimize
  simp only
  split
  · simp only [e, ht.1, Except.map, List.map_map, Function.comp_def]
  · rfl

/-! ### Non-vacuity -/

/-- The standard normal log-density without its normalising constant, and with it. -/
noncomputable def bareNormal : Target ℝ D d := ⟨fun x _ => -(∑ i, x i ^ 2) / 2, fun x _ i => -x i⟩

noncomputable def fullNormal : Target ℝ D d := ⟨fun x _ => -(∑ i, x i ^ 2) / 2 - d / 2 * Real.log (2 * Real.pi), fun x _ i => -x i⟩

theorem fullNormal_plus : PlusConst (-(d / 2 * Real.log (2 * Real.pi))) (bareNormal : Target ℝ D d) fullNormal :=
  ⟨fun _ _ => by simp only [bareNormal, fullNormal]; ring, fun _ _ => rfl⟩

/-- Non-vacuity of C105_bundle and C105_kernel: a bundle on the unnormalised normal density and the same bundle on the normalised one record the same positions; one GRW step as well. -/
example {V : Type} (env : Env ℝ D d M O) (b : BundleCfg ℝ D d M O) (hb : b.logpdf = bareNormal) (nd nc : ℕ) (key : Key) (kw : List (String × V)) (init : InitPos ℝ d) (data : Data D) :
    ∃ s s' : Sampler ℝ D d M O V, Sampler.new nd nc key none none none (some (malaBundle b)) kw = .ok s ∧
      Sampler.new nd nc key none none none (some (malaBundle { b with logpdf := fullNormal })) kw = .ok s' ∧
      (∀ B, (s.sample env init data).2.heap.res "positions_production" = some (.buffer B) ↔ (s'.sample env init data).2.heap.res "positions_production" = some (.buffer B)) := by
  refine ⟨_, _, rfl, rfl, fun B => ?_⟩
  exact (C105_bundle env b fullNormal _ (hb ▸ fullNormal_plus) nd nc key kw _ _ rfl rfl init data).2.1 "positions_production" (by simp [logProbBuffers]) (.buffer B) (by simp) (by simp)

example (rng : Rng ℝ) (k : Key) (x : Pos ℝ d) (lp : ℝ) (data : Data D) :
    (grwKernel rng 1 k x (lp + -(d / 2 * Real.log (2 * Real.pi))) fullNormal data).pos = (grwKernel rng 1 k x lp bareNormal data).pos :=
  (congrArg StepOut.pos (C105_kernel rng (KernelRes.grw (M := Unit) 1) _ rfl _ _ _ fullNormal_plus k x lp data)).trans rfl

end FlowMC
