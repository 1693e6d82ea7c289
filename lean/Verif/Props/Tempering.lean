import Verif.Jax.Ieee
import Verif.Lemmas.StepCall
import Verif.Lemmas.Toy
import Mathlib.Data.List.Sort
import Mathlib.Tactic.Linarith
import Mathlib.Tactic.FieldSimp
import Mathlib.Tactic.Positivity
/-
Replica exchange, temperature adaptation and the tempering call: C30, C33, C34, C35, C64.
-/
set_option linter.unusedSectionVars false
namespace FlowMC
open Spec

variable {F D : Type} {d : Nat} {M O : Type}

/-! ### swapAt -/

theorem swapAt_length {α : Type} (i : Nat) (xs : List α) : (swapAt i xs).length = xs.length := by
  unfold swapAt; split <;> simp

theorem swapAt_map {α β : Type} (f : α → β) (i : Nat) (xs : List α) : (swapAt i xs).map f = swapAt i (xs.map f) := by
  unfold swapAt
  simp only [List.getElem?_map]
  cases xs[i]? <;> cases xs[i + 1]? <;> simp [List.map_set]

theorem swapAt_cons {α : Type} (i : Nat) (x : α) (xs : List α) : swapAt (i + 1) (x :: xs) = x :: swapAt i xs := by
  unfold swapAt
  simp only [List.getElem?_cons_succ]
  cases xs[i]? <;> cases xs[i + 1]? <;> simp

theorem swapAt_perm {α : Type} (i : Nat) (xs : List α) : (swapAt i xs).Perm xs := by
  induction i generalizing xs with
  | zero =>
    match xs with
    | [] => exact .refl _
    | [_] => exact .refl _
    | a :: b :: l => exact .swap a b l
  | succ i ih =>
    cases xs with
    | nil => simp [swapAt]
    | cons x xs => rw [swapAt_cons]; exact (ih xs).cons x

section
variable [Zero F] [One F] [Div F] [Sub F] [Mul F] [Transc F] [FCmp F]

theorem exchScan_spec (rng : Rng F) (Ts : List F) (g : Pos F d → F) (n : Nat) : ∀ (i : Nat) (k : Key) (c : ExchCarry F d),
    c.logps = c.positions.map g →
    (exchScan rng Ts n i k c).1.positions.Perm c.positions ∧
    (exchScan rng Ts n i k c).1.logps = (exchScan rng Ts n i k c).1.positions.map g ∧
    (exchScan rng Ts n i k c).2.length = n := by
  induction n with
  | zero => intro i k c hc; exact ⟨.refl _, hc, rfl⟩
  | succ n ih =>
    intro i k c hc
    have hb : (exchBody Ts (rng.uniform (split k).2) i c).1.logps = (exchBody Ts (rng.uniform (split k).2) i c).1.positions.map g := by
      simp only [exchBody]; split
      · rw [swapAt_map, hc]
      · exact hc
    have hp : (exchBody Ts (rng.uniform (split k).2) i c).1.positions.Perm c.positions := by
      simp only [exchBody]; split
      · exact swapAt_perm _ _
      · exact .refl _
    obtain ⟨h1, h2, h3⟩ := ih (i + 1) (split k).1 _ hb
    refine ⟨h1.trans hp, h2, ?_⟩
    simp only [exchScan, List.length_cons]
    exact congrArg (· + 1) h3

/-- **C30.** Whatever the temperatures, the random draws and the log-likelihoods (NaN included): the sweep returns a permutation of the
walkers it received, the log-likelihood it carries for each temperature is the log-likelihood of the walker now at that temperature, and
there is one flag per neighbouring pair. -/
theorem C30_exchange_permutes (rng : Rng F) (l : TemperedPDF F D d) (data : Data D) (Ts : List F) (k : Key) (xs : List (Pos F d)) :
    (exchange rng l data Ts k xs).1.positions.Perm xs ∧
    (exchange rng l data Ts k xs).1.logps = (exchange rng l data Ts k xs).1.positions.map (fun x => l.call x data) ∧
    (exchange rng l data Ts k xs).2.length = xs.length - 1 :=
  exchScan_spec rng Ts (fun x => l.call x data) (xs.length - 1) 0 k ⟨xs, xs.map (fun x => l.call x data)⟩ rfl

/-- **C30.** One pair: the flag says whether precisely the two neighbours were exchanged. -/
theorem C30_pair (Ts : List F) (u : F) (pre post : List (Pos F d)) (a b : Pos F d) (lps : List F) :
    ((exchBody Ts u pre.length ⟨pre ++ a :: b :: post, lps⟩).2 = true →
      (exchBody Ts u pre.length ⟨pre ++ a :: b :: post, lps⟩).1.positions = pre ++ b :: a :: post) ∧
    ((exchBody Ts u pre.length ⟨pre ++ a :: b :: post, lps⟩).2 = false →
      (exchBody Ts u pre.length ⟨pre ++ a :: b :: post, lps⟩).1.positions = pre ++ a :: b :: post) := by
  constructor <;> intro h
  · simp only [exchBody] at h ⊢
    rw [if_pos h]
    clear h
    induction pre with
    | nil => rfl
    | cons p ps ih => simp only [List.cons_append, List.length_cons, swapAt_cons, ih]
  · simp only [exchBody] at h ⊢
    simp [h]

end

/-- A sweep that really moves walkers: with likelihood `x ↦ x` on integers the swap test is about the carried values. -/
example : ((exchange Toy.rng ⟨⟨Toy.target, []⟩, Toy.target⟩ Toy.data [1, 1, 1] (Key.root 0) [fun _ => 5, fun _ => 6, fun _ => 7]).1.positions.map (· 0))
    = [6, 7, 5] := by decide

/-! ### C33: temperature adaptation over ℝ -/

/-- A temperature ladder whose temperatures other than the last are strictly increasing. -/
def Spec.OrderedBelowTop (Ts : List ℝ) : Prop := Ts.dropLast.Pairwise (· < ·)

/-- The fraction of the chains whose exchange between temperatures `i` and `i + 1` was accepted. -/
noncomputable def Spec.exchangedFraction (accs : List (List Bool)) (i : Nat) : ℝ := (accs.countP fun flags => flags[i]? = some true) / accs.length

theorem accRate_fraction (accs : List (List Bool)) (i : Nat) : (accRate accs i : ℝ) = exchangedFraction accs i := by
  unfold accRate exchangedFraction
  rw [List.countP_eq_length_filter]
  congr 4
  funext flags
  cases h : flags[i]? with
  | none => simp [List.getD, h]
  | some b => cases b <;> simp [List.getD, h]

/-- Any number of adaptations, each with its own table of exchange flags. -/
noncomputable def adaptMany (Ts : List ℝ) (tables : List (List (List Bool))) : List ℝ := tables.foldl adaptTemperature Ts

theorem adaptLoop_length (accs : List (List Bool)) (ts : List ℝ) : ∀ (i : Nat) (prev told : ℝ),
    (adaptLoop accs i prev told ts).length = ts.length := by
  induction ts with
  | nil => intro i p t; rfl
  | cons a ts ih =>
    intro i p t
    cases ts with
    | nil => rfl
    | cons b ts => simp [adaptLoop, ih]

theorem adaptLoop_getLast? (accs : List (List Bool)) (ts : List ℝ) : ∀ (i : Nat) (prev told : ℝ),
    (adaptLoop accs i prev told ts).getLast? = ts.getLast? := by
  induction ts with
  | nil => intro i p t; rfl
  | cons a ts ih =>
    intro i p t
    cases ts with
    | nil => rfl
    | cons b ts =>
      have h := ih (i + 1) (p + (a - t) * Transc.exp (damping accs (i - 1))) a
      have hl := adaptLoop_length accs (b :: ts) (i + 1) (p + (a - t) * Transc.exp (damping accs (i - 1))) a
      simp only [adaptLoop]
      generalize adaptLoop accs (i + 1) (p + (a - t) * Transc.exp (damping accs (i - 1))) a (b :: ts) = r at h hl
      cases r with
      | nil => simp at hl
      | cons r0 rs => rw [List.getLast?_cons_cons, h]; rfl

theorem adaptLoop_chain (accs : List (List Bool)) (ts : List ℝ) : ∀ (i : Nat) (prev told : ℝ),
    (told :: ts.dropLast).Pairwise (· < ·) → (prev :: (adaptLoop accs i prev told ts).dropLast).Pairwise (· < ·) := by
  induction ts with
  | nil => intro i p t _; simp [adaptLoop]
  | cons a ts ih =>
    intro i p t h
    cases ts with
    | nil => simp [adaptLoop]
    | cons b ts =>
      simp only [List.dropLast_cons_cons, adaptLoop] at h ⊢
      have hta : t < a := (List.pairwise_cons.1 h).1 a (by simp)
      have hnew : p < p + (a - t) * Transc.exp (damping accs (i - 1)) := by
        have : 0 < (a - t) * Transc.exp (damping accs (i - 1)) := mul_pos (sub_pos.2 hta) (Real.exp_pos _)
        linarith
      have h2 := ih (i + 1) (p + (a - t) * Transc.exp (damping accs (i - 1))) a (List.pairwise_cons.1 h).2
      have hl := adaptLoop_length accs (b :: ts) (i + 1) (p + (a - t) * Transc.exp (damping accs (i - 1))) a
      generalize adaptLoop accs (i + 1) (p + (a - t) * Transc.exp (damping accs (i - 1))) a (b :: ts) = r at h2 hl
      generalize p + (a - t) * Transc.exp (damping accs (i - 1)) = q at h2 hnew
      cases r with
      | nil => simp at hl
      | cons r0 rs =>
        rw [List.dropLast_cons_cons]
        refine List.pairwise_cons.2 ⟨fun y hy => ?_, h2⟩
        rcases List.mem_cons.1 hy with rfl | hy
        · exact hnew
        · exact hnew.trans ((List.pairwise_cons.1 h2).1 y hy)

theorem adapt_one (accs : List (List Bool)) (Ts : List ℝ) :
    (adaptTemperature Ts accs).length = Ts.length ∧ (adaptTemperature Ts accs).head? = Ts.head? ∧
    (adaptTemperature Ts accs).getLast? = Ts.getLast? ∧ (OrderedBelowTop Ts → OrderedBelowTop (adaptTemperature Ts accs)) := by
  cases Ts with
  | nil => exact ⟨rfl, rfl, rfl, fun h => h⟩
  | cons t0 ts =>
    refine ⟨?_, rfl, ?_, fun h => ?_⟩
    · simp [adaptTemperature, adaptLoop_length]
    · simp only [adaptTemperature]
      have hl := adaptLoop_length accs ts 1 t0 t0
      have hg := adaptLoop_getLast? accs ts 1 t0 t0
      cases ts with
      | nil => rfl
      | cons b ts =>
        generalize adaptLoop accs 1 t0 t0 (b :: ts) = r at hl hg
        cases r with
        | nil => simp at hl
        | cons r0 rs => rw [List.getLast?_cons_cons, List.getLast?_cons_cons, hg]
    · unfold OrderedBelowTop at *
      simp only [adaptTemperature]
      cases ts with
      | nil => simp [adaptLoop]
      | cons b ts =>
        rw [List.dropLast_cons_cons] at h
        have h2 := adaptLoop_chain accs (b :: ts) 1 t0 t0 h
        have hl := adaptLoop_length accs (b :: ts) 1 t0 t0
        generalize adaptLoop accs 1 t0 t0 (b :: ts) = r at h2 hl
        cases r with
        | nil => simp at hl
        | cons r0 rs => rw [List.dropLast_cons_cons]; exact h2

/-- **C33.** After any number of adaptations, with any exchange flags whatever and any number of chains (zero included): the number of
temperatures, the first and the last one are unchanged, the ladder without its last entry is still strictly increasing, and none of its
entries is below the first temperature. -/
theorem C33_adaptation (tables : List (List (List Bool))) (Ts : List ℝ) (hT : OrderedBelowTop Ts) :
    (adaptMany Ts tables).length = Ts.length ∧ (adaptMany Ts tables).head? = Ts.head? ∧
    (adaptMany Ts tables).getLast? = Ts.getLast? ∧ OrderedBelowTop (adaptMany Ts tables) ∧
    ∀ t0, Ts.head? = some t0 → (∀ tl, Ts.getLast? = some tl → t0 ≤ tl) → ∀ t ∈ adaptMany Ts tables, t0 ≤ t := by
  have main : (adaptMany Ts tables).length = Ts.length ∧ (adaptMany Ts tables).head? = Ts.head? ∧
      (adaptMany Ts tables).getLast? = Ts.getLast? ∧ OrderedBelowTop (adaptMany Ts tables) := by
    induction tables generalizing Ts with
    | nil => exact ⟨rfl, rfl, rfl, hT⟩
    | cons a tables ih =>
      obtain ⟨h1, h2, h3, h4⟩ := adapt_one a Ts
      obtain ⟨g1, g2, g3, g4⟩ := ih (adaptTemperature Ts a) (h4 hT)
      exact ⟨g1.trans h1, g2.trans h2, g3.trans h3, g4⟩
  refine ⟨main.1, main.2.1, main.2.2.1, main.2.2.2, ?_⟩
  intro t0 h0 hl t ht
  obtain ⟨_, g2, g3, g4⟩ := main
  rw [h0] at g2
  generalize adaptMany Ts tables = R at *
  rcases List.eq_nil_or_concat R with rfl | ⟨L, b, rfl⟩
  · simp at ht
  · rw [List.concat_eq_append] at *
    simp only [List.getLast?_append, List.getLast?_singleton, Option.some_or] at g3
    unfold OrderedBelowTop at g4
    rw [List.dropLast_concat] at g4
    rcases List.mem_append.1 ht with h | h
    · cases L with
      | nil => simp at h
      | cons a L =>
        simp only [List.cons_append, List.head?_cons, Option.some.injEq] at g2
        subst g2
        rcases List.mem_cons.1 h with rfl | h
        · exact le_refl _
        · exact ((List.pairwise_cons.1 g4).1 t h).le
    · rw [List.mem_singleton.1 h]
      exact hl b g3.symm

example : OrderedBelowTop [1, 2, 3, 10] := by unfold OrderedBelowTop; norm_num

theorem adaptLoop_gap (accs : List (List Bool)) (ts : List ℝ) : ∀ (i : Nat) (prev told : ℝ) (j : Nat), 0 < i → j + 1 < ts.length →
    (prev :: adaptLoop accs i prev told ts).getD (j + 1) 0 - (prev :: adaptLoop accs i prev told ts).getD j 0 =
      ((told :: ts).getD (j + 1) 0 - (told :: ts).getD j 0) * Real.exp (100 / accs.length * (exchangedFraction accs (i - 1 + j) - exchangedFraction accs (i + j))) := by
  induction ts with
  | nil => intro i p t j _ h; simp at h
  | cons a ts ih =>
    intro i p t j hi hj
    cases ts with
    | nil => simp at hj
    | cons b ts =>
      simp only [adaptLoop]
      cases j with
      | zero =>
        simp only [List.getD_cons_succ, List.getD_cons_zero, Nat.add_zero, add_sub_cancel_left]
        congr 1
        show Real.exp _ = _
        rw [damping, accRate_fraction, accRate_fraction, Nat.sub_add_cancel hi]
        norm_num
      | succ j =>
        have := ih (i + 1) (p + (a - t) * Transc.exp (damping accs (i - 1))) a j (by omega) (by simpa using hj)
        rw [show i - 1 + (j + 1) = i + 1 - 1 + j by omega, show i + (j + 1) = i + 1 + j by omega]
        exact this

/-- **C33, the rule.** An adaptation multiplies the gap below temperature `j + 1` (not the top one) by `exp (100/n · (a_j - a_{j+1}))`, where `a_j` is the fraction of the `n` chains whose exchange between
temperatures `j` and `j + 1` was accepted. -/
theorem C33_gaps (accs : List (List Bool)) (Ts : List ℝ) (j : Nat) (hj : j + 2 < Ts.length) :
    (adaptTemperature Ts accs).getD (j + 1) 0 - (adaptTemperature Ts accs).getD j 0 =
      (Ts.getD (j + 1) 0 - Ts.getD j 0) * Real.exp (100 / accs.length * (exchangedFraction accs j - exchangedFraction accs (j + 1))) := by
  cases Ts with
  | nil => simp at hj
  | cons t0 ts =>
    have := adaptLoop_gap accs ts 1 t0 t0 j (by omega) (by simp at hj; omega)
    simp only [adaptTemperature]
    rw [this, Nat.sub_self, Nat.zero_add, Nat.add_comm 1 j]

/-- **C34 is false.** With three temperatures 1, 2, 3, a single chain whose first exchange was accepted and whose second one was not, the
middle temperature becomes `1 + e^100`, far above the configured maximum 3, and the ladder is no longer increasing. -/
theorem C34_exceeds_maximum :
    adaptTemperature [1, 2, 3] [[true, false]] = [1, 1 + Real.exp 100, 3] ∧
    ¬ (adaptTemperature [1, 2, 3] [[true, false]]).Pairwise (fun a b : ℝ => a < b) ∧
    ∃ t ∈ adaptTemperature [1, 2, 3] [[true, false]], (3 : ℝ) < t := by
  have h : adaptTemperature [1, 2, 3] [[true, false]] = [1, 1 + Real.exp 100, 3] := by
    simp [adaptTemperature, adaptLoop, damping, accRate, Transc.exp]
    norm_num
  have he : (3 : ℝ) < 1 + Real.exp 100 := by
    have := Real.add_one_le_exp (100 : ℝ)
    linarith
  refine ⟨h, ?_, ?_⟩
  · rw [h]; intro hp
    have := (List.pairwise_cons.1 (List.pairwise_cons.1 hp).2).1 3 (by simp)
    linarith
  · rw [h]; exact ⟨_, by simp, he⟩

/-- The acceptance rates of the exchanges of the `nTemps - 1` neighbouring pairs do not decrease towards the top of the ladder. -/
def Spec.RatesNondecreasing (accs : List (List Bool)) (nTemps : Nat) : Prop :=
  ∀ i, i + 2 < nTemps → exchangedFraction accs i ≤ exchangedFraction accs (i + 1)

theorem adaptLoop_le (accs : List (List Bool)) (n : Nat) (ha : RatesNondecreasing accs n) (ts : List ℝ) : ∀ (i : Nat) (prev told : ℝ),
    0 < i → i + ts.length = n → prev ≤ told → (told :: ts.dropLast).Pairwise (· < ·) → List.Forall₂ (· ≤ ·) (adaptLoop accs i prev told ts) ts := by
  induction ts with
  | nil => intro i p t _ _ _ _; exact .nil
  | cons a ts ih =>
    intro i p t hi hn hp h
    cases ts with
    | nil => exact .cons le_rfl .nil
    | cons b ts =>
      simp only [List.dropLast_cons_cons, adaptLoop] at h ⊢
      have hta : t < a := (List.pairwise_cons.1 h).1 a (by simp)
      have hd : damping (F := ℝ) accs (i - 1) ≤ 0 := by
        unfold damping
        rw [accRate_fraction, accRate_fraction]
        exact mul_nonpos_of_nonneg_of_nonpos (by positivity) (sub_nonpos.2 (ha _ (by simp at hn; omega)))
      have he : (Transc.exp (damping (F := ℝ) accs (i - 1)) : ℝ) ≤ 1 := Real.exp_le_one_iff.2 hd
      have hnew : p + (a - t) * Transc.exp (damping accs (i - 1)) ≤ a := by nlinarith [sub_pos.2 hta]
      exact .cons hnew (ih (i + 1) _ a (by omega) (by simp at hn ⊢; omega) hnew (List.pairwise_cons.1 h).2)

/-- **C34, the part that holds.** If the exchange rates do not decrease towards the top of the ladder, no temperature grows in an adaptation; in
particular all stay below the maximum (missing: without this hypothesis the claim is false, see `C34_exceeds_maximum`). -/
theorem C34_bounded_partial (accs : List (List Bool)) (Ts : List ℝ) (ha : RatesNondecreasing accs Ts.length) (hT : OrderedBelowTop Ts) :
    List.Forall₂ (· ≤ ·) (adaptTemperature Ts accs) Ts := by
  cases Ts with
  | nil => exact .nil
  | cons t0 ts =>
    refine .cons le_rfl ?_
    cases ts with
    | nil => exact .nil
    | cons b ts =>
      unfold OrderedBelowTop at hT
      rw [List.dropLast_cons_cons] at hT
      exact adaptLoop_le accs _ ha (b :: ts) 1 t0 t0 (by omega) (by simp; omega) le_rfl hT

example : RatesNondecreasing [[false, true], [true, true]] 3 := by
  intro i hi
  have : i = 0 := by omega
  subst this
  norm_num [exchangedFraction]

/-! ### C64 -/

/-- **C64.** Over the reals, a tempered density is `logL / T + logprior`; at `T = 1` it is `logL + logprior`; between two temperatures
`0 < T ≤ T'` it moves from the colder to the hotter value in the direction opposite to the sign of `logL`; calling the object gives `logL`. -/
theorem C64_tempered (l : TemperedPDF ℝ D d) (x : Pos ℝ d) (data : Data D) (T T' : ℝ) :
    (l.tempered T).val x data = l.call x data / T + l.logPrior.val x data ∧
    (l.tempered 1).val x data = l.call x data + l.logPrior.val x data ∧
    l.call x data = l.base.logPdf.val x data ∧
    (0 < T → T ≤ T' → l.call x data ≤ 0 → (l.tempered T).val x data ≤ (l.tempered T').val x data) ∧
    (0 < T → T ≤ T' → 0 ≤ l.call x data → (l.tempered T').val x data ≤ (l.tempered T).val x data) := by
  refine ⟨?_, ?_, rfl, ?_, ?_⟩
  · simp only [TemperedPDF.tempered, TemperedPDF.call]; ring
  · simp only [TemperedPDF.tempered, TemperedPDF.call]; ring
  · intro h1 h2 h3
    simp only [TemperedPDF.tempered, TemperedPDF.call] at *
    have : 1 / T' ≤ 1 / T := one_div_le_one_div_of_le h1 h2
    nlinarith
  · intro h1 h2 h3
    simp only [TemperedPDF.tempered, TemperedPDF.call] at *
    have : 1 / T' ≤ 1 / T := one_div_le_one_div_of_le h1 h2
    nlinarith

/-- **C64.** As the temperature grows the tempered density tends to the prior. -/
theorem C64_infinite_temperature (l : TemperedPDF ℝ D d) (x : Pos ℝ d) (data : Data D) :
    Filter.Tendsto (fun T : ℝ => (l.tempered T).val x data) Filter.atTop (nhds (l.logPrior.val x data)) := by
  have h : Filter.Tendsto (fun T : ℝ => l.call x data / T + l.logPrior.val x data) Filter.atTop (nhds (0 + l.logPrior.val x data)) :=
    (Filter.Tendsto.div_atTop tendsto_const_nhds Filter.tendsto_id).add tendsto_const_nhds
  rw [zero_add] at h
  refine h.congr (fun T => ?_)
  exact ((C64_tempered l x data T T).1).symm

/-! ### C35: the tempering call -/

section
variable [Zero F] [One F] [Add F] [Mul F] [Div F] [Sub F] [Neg F] [NatCast F] [Transc F] [FCmp F] [BufNum F]

/-- What a tempering call finds: kernel, tempered density, the two buffers (replicas of shape `(n_chains, n_temps - 1, n_dims)`, temperatures), and
the `training` entry of the state. -/
structure Spec.TemperSite (s : ParallelTempering) (h : Heap F D d M O) (rng : Rng F) (n m : Nat) (P T : String) (pb tb : Buffer F)
    (K : LocalKernel F D d) (l : TemperedPDF F D d) (v : SVal) : Prop where
  names : ∃ rest, s.bufferNames = P :: T :: rest
  ne : P ≠ T
  kernel : ∃ kr, h.res s.kernelName = some (.kernel kr) ∧ kr.local? rng = some K
  density : h.res s.temperedLogpdfName = some (.tempered l)
  posBuf : h.res P = some (.buffer pb)
  tempBuf : h.res T = some (.buffer tb)
  state : ∃ st, h.res s.stateName = some (.state st) ∧ st.data "training" = some v
  posShape : pb.data.shape = [n, m, d]
  tempShape : tb.data.shape = [m + 1]
  posDim : pb.cursorDim < 3
  tempDim : tb.cursorDim = 0

/-- Temperatures stored in the buffer. -/
def Spec.ladder (tb : Buffer F) (m : Nat) : List F := (List.range (m + 1)).map (fun i => tb.data.get [i])

/-- Walkers of all chains after the local moves and the exchange sweep, with the exchange flags. -/
def Spec.temperedWalkers (rng : Rng F) (s : ParallelTempering) (k : Key) (xs : List (Pos F d)) (data : Data D) (m : Nat) (pb tb : Buffer F)
    (K : LocalKernel F D d) (l : TemperedPDF F D d) : List (ExchCarry F d × List Bool) :=
  let kMoves := Key.child (Key.child k 0) 1
  let kExch := Key.child (Key.child (Key.child k 0) 0) 1
  (xs.zipIdx.map (fun xi => xi.1 :: (List.range m).map (fun j => (row3 pb.data xi.2 j : Pos F d)))).zipIdx.map (fun ri =>
    exchange rng l data (ladder tb m) (Key.child kExch ri.2)
      (ensembleStep K l data s.nSteps (Key.child kMoves ri.2) ri.1 (ladder tb m)))

theorem zip_splitN_map {α β : Type} (k : Key) (f : Key × α → β) (ys : List α) (n : Nat) (hn : ys.length = n) :
    ((splitN k n).zip ys).map f = ys.zipIdx.map (fun yi => f (Key.child k yi.2, yi.1)) := by
  apply List.ext_getElem?
  intro i
  simp only [List.getElem?_map, List.getElem?_zipIdx, List.zip, List.getElem?_zipWith, splitN_getElem?]
  by_cases h : i < n
  · simp [h, List.getElem?_eq_getElem (hn ▸ h)]
  · have : ys[i]? = none := List.getElem?_eq_none (by omega)
    simp [h, this]

theorem replaceAll (h : Heap F D d M O) (name : String) (b : Buffer F) (hb : h.res name = some (.buffer b)) (upd : NDArr F)
    (hs : upd.shape = b.data.shape) (hd : b.cursorDim < b.data.shape.length) :
    ∃ b', h.updateBuffer name upd 0 = (.ok (), h.setRes name (.buffer b')) ∧ b'.name = b.name ∧ b'.cursor = b.cursor ∧
      b'.cursorDim = b.cursorDim ∧ b'.data.shape = b.data.shape ∧ ∀ idx, InBounds idx b.data.shape → b'.data.get idx = upd.get idx := by
  have hset : ∀ (l : List Nat) (k : Nat), l.set k (l.getD k 0) = l := by
    intro l
    induction l with
    | nil => simp
    | cons a l ih => intro k; cases k with
      | zero => simp
      | succ k => simpa using ih k
  obtain ⟨r, h1, h2, h3⟩ := dynUpdate_slab b.data upd 0 b.cursorDim (b.data.shape.getD b.cursorDim 0) hd (by rw [hs, hset]) le_rfl
  have hc : clampStart 0 (b.data.shape.getD b.cursorDim 0) (b.data.shape.getD b.cursorDim 0) = 0 := by
    simpa using clampStart_fits 0 (b.data.shape.getD b.cursorDim 0) (b.data.shape.getD b.cursorDim 0) (by omega)
  rw [hc] at h3
  refine ⟨{ b with data := r }, ?_, rfl, rfl, rfl, h2, ?_⟩
  · simp [Heap.updateBuffer, Heap.getBuffer_of hb, Buffer.updateBuffer, h1]
  · intro idx hi
    have h4 := h3 idx hi
    rw [if_pos ⟨Nat.zero_le _, by simpa using hi.getD_lt _ hd⟩, Nat.sub_zero, hset] at h4
    exact h4

theorem plan_of_site (env : Env F D d M O) (s : ParallelTempering) (k : Key) (xs : List (Pos F d)) (data : Data D) (h : Heap F D d M O)
    (m : Nat) (P T : String) (pb tb : Buffer F) (K : LocalKernel F D d) (l : TemperedPDF F D d) (v : SVal)
    (site : TemperSite s h env.rng xs.length m P T pb tb K l v) :
    s.plan env k xs data h = .ok
      { posName := P, tempName := T, outKey := Key.child (Key.child (Key.child k 0) 0) 0
        positions := (temperedWalkers env.rng s k xs data m pb tb K l).map (fun e => e.1.positions)
        newTemps := adaptTemperature (ladder tb m) ((temperedWalkers env.rng s k xs data m pb tb K l).map (·.2))
        training := v.truthy } := by
  obtain ⟨rest, hn⟩ := site.names
  obtain ⟨kr, hk, hK⟩ := site.kernel
  obtain ⟨st, hst, hv⟩ := site.state
  have e1 : h.getKernel s.kernelName = .ok kr := by simp [Heap.getKernel, Heap.get, hk]
  have e2 : h.getTempered s.temperedLogpdfName = .ok l := by simp [Heap.getTempered, Heap.get, site.density]
  have e3 : nthName s.bufferNames 0 = .ok P := by simp [nthName, hn]
  have e4 : nthName s.bufferNames 1 = .ok T := by simp [nthName, hn]
  have e5 : h.getState s.stateName = .ok st := by simp [Heap.getState, Heap.get, hst]
  have hw : ((splitN (Key.child (Key.child (Key.child k 0) 0) 1) xs.length).zip
      (((splitN (Key.child (Key.child k 0) 1) xs.length).zip (withReplicas xs pb.data m)).map
        (fun a => ensembleStep K l data s.nSteps a.1 a.2 (ladder tb m)))).map (fun a => exchange env.rng l data (ladder tb m) a.1 a.2)
      = temperedWalkers env.rng s k xs data m pb tb K l := by
    have hr : (withReplicas xs pb.data m : List (List (Pos F d))).length = xs.length := by simp [withReplicas]
    rw [zip_splitN_map _ _ (withReplicas xs pb.data m) _ hr, zip_splitN_map _ _ _ _ (by simp [hr])]
    unfold temperedWalkers
    apply List.ext_getElem?
    intro i
    simp only [List.getElem?_map, List.getElem?_zipIdx, withReplicas]
    cases xs[i]? <;> simp
  simp only [ParallelTempering.plan, e1, e2, e3, e4, e5, Heap.getBuffer_of site.posBuf, Heap.getBuffer_of site.tempBuf, bind,
    Except.bind, hK, site.posShape, site.tempShape, and_self, if_true, hv, split, true_and]
  unfold ladder at hw ⊢
  rw [hw]

theorem coldRow_map (ws : List (ExchCarry F d × List Bool)) :
    coldRow (ws.map (fun e => e.1.positions)) = ws.filterMap (fun e => e.1.positions.head?) := by
  simp [coldRow, List.filterMap_map, Function.comp_def]

/-- **C35, not training.** With a falsy `training` entry the call returns the walkers at the first temperature and leaves every resource
and every cursor exactly as it was. -/
theorem C35_frozen (env : Env F D d M O) (s : ParallelTempering) (k : Key) (xs : List (Pos F d)) (data : Data D) (h : Heap F D d M O)
    (m : Nat) (P T : String) (pb tb : Buffer F) (K : LocalKernel F D d) (l : TemperedPDF F D d) (v : SVal)
    (site : TemperSite s h env.rng xs.length m P T pb tb K l v) (hv : v.truthy = false) :
    s.run env k xs data h = (.ok (Key.child (Key.child (Key.child k 0) 0) 0,
      (temperedWalkers env.rng s k xs data m pb tb K l).filterMap (fun e => e.1.positions.head?)), h) := by
  simp only [ParallelTempering.run, plan_of_site env s k xs data h m P T pb tb K l v site, hv, Bool.false_eq_true, if_false, coldRow_map]

theorem ensembleStep_length (K : LocalKernel F D d) (l : TemperedPDF F D d) (data : Data D) (n : Nat) (k : Key) (xs : List (Pos F d)) (Ts : List F)
    (hl : xs.length = Ts.length) : (ensembleStep K l data n k xs Ts).length = xs.length := by
  simp [ensembleStep, splitN_length, hl]

theorem adaptLoop_length' (accs : List (List Bool)) (ts : List F) : ∀ (i : Nat) (prev told : F),
    (adaptLoop accs i prev told ts).length = ts.length := by
  induction ts with
  | nil => intro i p t; rfl
  | cons a ts ih =>
    intro i p t
    cases ts with
    | nil => rfl
    | cons b ts => simp [adaptLoop, ih]

theorem adaptTemperature_length (accs : List (List Bool)) (Ts : List F) : (adaptTemperature Ts accs).length = Ts.length := by
  cases Ts <;> simp [adaptTemperature, adaptLoop_length']

theorem temperedWalkers_length (rng : Rng F) (s : ParallelTempering) (k : Key) (xs : List (Pos F d)) (data : Data D) (m : Nat) (pb tb : Buffer F)
    (K : LocalKernel F D d) (l : TemperedPDF F D d) :
    (temperedWalkers rng s k xs data m pb tb K l).length = xs.length ∧
    ∀ e ∈ temperedWalkers rng s k xs data m pb tb K l, e.1.positions.length = m + 1 := by
  refine ⟨by simp [temperedWalkers], ?_⟩
  intro e he
  simp only [temperedWalkers, List.mem_map] at he
  obtain ⟨⟨r, i⟩, hr, rfl⟩ := he
  rw [(C30_exchange_permutes rng l data _ _ _).1.length_eq]
  have hlen : r.length = m + 1 := by
    have := (List.mem_zipIdx hr).2.2
    simp only [List.getElem_map] at this
    rw [this]; simp
  rw [ensembleStep_length _ _ _ _ _ _ _ (by simp [hlen, ladder]), hlen]

/-- **C35, training.** With a truthy `training` entry the call succeeds, returns the walkers at the first temperature, and changes exactly two
resources: the replica buffer now holds walkers `1, 2, …` of every chain after the exchange sweep, the temperature buffer holds the
adapted ladder.  Their names, shapes and cursors, all other resources and all cursors are unchanged. -/
theorem C35_training (env : Env F D d M O) (s : ParallelTempering) (k : Key) (xs : List (Pos F d)) (data : Data D) (h : Heap F D d M O)
    (m : Nat) (P T : String) (pb tb : Buffer F) (K : LocalKernel F D d) (l : TemperedPDF F D d) (v : SVal)
    (site : TemperSite s h env.rng xs.length m P T pb tb K l v) (hv : v.truthy = true) :
    ∃ h' pb' tb', s.run env k xs data h = (.ok (Key.child (Key.child (Key.child k 0) 0) 0,
        (temperedWalkers env.rng s k xs data m pb tb K l).filterMap (fun e => e.1.positions.head?)), h') ∧
      (∀ name, name ≠ P → name ≠ T → h'.res name = h.res name) ∧ h'.pos = h.pos ∧
      h'.res P = some (.buffer pb') ∧ pb'.name = pb.name ∧ pb'.cursor = pb.cursor ∧ pb'.cursorDim = pb.cursorDim ∧
      pb'.data.shape = pb.data.shape ∧
      (∀ i j e w, (temperedWalkers env.rng s k xs data m pb tb K l)[i]? = some e → e.1.positions[j + 1]? = some w →
        ∀ c : Fin d, pb'.data.get [i, j, c] = w c) ∧
      h'.res T = some (.buffer tb') ∧ tb'.name = tb.name ∧ tb'.cursor = tb.cursor ∧ tb'.cursorDim = tb.cursorDim ∧
      tb'.data.shape = tb.data.shape ∧
      ladder tb' m = adaptTemperature (ladder tb m) ((temperedWalkers env.rng s k xs data m pb tb K l).map (·.2)) := by
  have hplan := plan_of_site env s k xs data h m P T pb tb K l v site
  obtain ⟨wl, wp⟩ := temperedWalkers_length env.rng s k xs data m pb tb K l
  generalize hW : temperedWalkers env.rng s k xs data m pb tb K l = W at hplan wl wp
  have hTs : (adaptTemperature (ladder tb m) (W.map (·.2))).length = m + 1 := by
    rw [adaptTemperature_length]; simp [ladder]
  obtain ⟨pb', u1, n1, c1, d1, s1, g1⟩ := replaceAll h P pb site.posBuf
    (arr3 BufNum.negInf xs.length m ((W.map (fun e => e.1.positions)).map (·.tail)))
    (by simp [arr3, site.posShape]) (by rw [site.posShape]; exact site.posDim)
  have hT' : (h.setRes P (.buffer pb')).res T = some (.buffer tb) := by
    simp [Heap.setRes, dictSet, site.ne.symm, site.tempBuf]
  obtain ⟨tb', u2, n2, c2, d2, s2, g2⟩ := replaceAll (h.setRes P (.buffer pb')) T tb hT'
    (arr1 BufNum.negInf (adaptTemperature (ladder tb m) (W.map (·.2))))
    (by simp [arr1, site.tempShape, hTs]) (by simp [site.tempShape, site.tempDim])
  refine ⟨(h.setRes P (.buffer pb')).setRes T (.buffer tb'), pb', tb', ?_, ?_, rfl, ?_, n1, c1, d1, s1, ?_, ?_, n2, c2, d2, s2, ?_⟩
  · simp only [ParallelTempering.run, hplan, hv, if_true, hTs, Nat.add_sub_cancel, u1, u2, coldRow_map]
  · intro name h1 h2
    simp [Heap.setRes, dictSet, h1, h2]
  · simp [Heap.setRes, dictSet, site.ne]
  · intro i j e w he hw c
    have hi : i < xs.length := by
      rw [← wl]; exact (List.getElem?_eq_some_iff.1 he).1
    have hj : j < m := by
      have := (List.getElem?_eq_some_iff.1 hw).1
      have := wp e (List.mem_of_getElem? he)
      omega
    rw [g1 [i, j, c.val] (by simp [site.posShape, InBounds, hi, hj])]
    simp [arr3, List.getElem?_map, he, List.getElem?_tail, hw]
  · simp [Heap.setRes, dictSet]
  · apply List.ext_getElem?
    intro i
    by_cases hi : i < m + 1
    · have := g2 [i] (by simp [site.tempShape, InBounds, hi])
      simp only [ladder, List.getElem?_map, List.getElem?_range hi, Option.map_some, this, arr1]
      rw [List.getElem?_eq_getElem (by rw [← ladder]; rw [hTs]; exact hi)]
      simp [ladder]
    · rw [List.getElem?_eq_none (by simp [ladder]; omega), List.getElem?_eq_none (by rw [hTs]; omega)]

/-- **C35.** Whatever the resources look like (missing, wrong types, wrong shapes), whether the call returns or raises: nothing but the
resources under the two configured buffer names is ever touched, and no step cursor moves. -/
theorem C35_frame (env : Env F D d M O) (s : ParallelTempering) (k : Key) (xs : List (Pos F d)) (data : Data D) (h : Heap F D d M O) :
    (∀ name, name ∉ s.bufferNames.take 2 → (s.run env k xs data h).2.res name = h.res name) ∧
    (s.run env k xs data h).2.pos = h.pos := by
  have hnames : ∀ p, s.plan env k xs data h = .ok p → p.posName ∈ s.bufferNames.take 2 ∧ p.tempName ∈ s.bufferNames.take 2 := by
    intro p hp
    simp only [ParallelTempering.plan, bind, Except.bind] at hp
    repeat' split at hp <;> try (cases hp; done)
    simp only [Except.ok.injEq] at hp
    subst hp
    have hn : ∀ i < 2, ∀ n, nthName s.bufferNames i = .ok n → n ∈ s.bufferNames.take 2 := by
      intro i hi n hn
      unfold nthName at hn
      split at hn
      · rename_i q hq
        cases hn
        exact List.mem_of_getElem? (i := i) (by rw [List.getElem?_take, if_pos hi, hq])
      · cases hn
    exact ⟨hn 0 (by omega) _ (by assumption), hn 1 (by omega) _ (by assumption)⟩
  unfold ParallelTempering.run
  cases hp : s.plan env k xs data h with
  | error e => exact ⟨fun _ _ => rfl, rfl⟩
  | ok p =>
    obtain ⟨m1, m2⟩ := hnames p hp
    simp only
    split
    · have f1 := h.updateBuffer_frame p.posName (arr3 BufNum.negInf xs.length (p.newTemps.length - 1) (p.positions.map (·.tail))) 0
      cases h1 : h.updateBuffer p.posName (arr3 BufNum.negInf xs.length (p.newTemps.length - 1) (p.positions.map (·.tail))) 0 with
      | mk r h1' =>
        rw [h1] at f1
        cases r with
        | error e => exact ⟨fun n hn => f1.1 n (by rintro rfl; exact hn m1), f1.2⟩
        | ok _ =>
          simp only
          have f2 := h1'.updateBuffer_frame p.tempName (arr1 BufNum.negInf p.newTemps) 0
          cases h2 : h1'.updateBuffer p.tempName (arr1 BufNum.negInf p.newTemps) 0 with
          | mk r h2' =>
            rw [h2] at f2
            have : (∀ n, n ∉ s.bufferNames.take 2 → h2'.res n = h.res n) ∧ h2'.pos = h.pos :=
              ⟨fun n hn => (f2.1 n (by rintro rfl; exact hn m2)).trans (f1.1 n (by rintro rfl; exact hn m1)), f2.2.trans f1.2⟩
            cases r <;> exact this
    · exact ⟨fun _ _ => rfl, rfl⟩

end

/-- A heap for one tempering strategy with two chains and three temperatures. -/
def Toy.temperHeap (training : Bool) : Heap Int Unit 1 Int Int where
  res := fun n => match n with
    | "state" => some (.state (State.new (fun k => if k = "training" then some (.bool training) else none)))
    | "P" => some (.buffer (Buffer.new "P" [2, 2, 1] 2))
    | "T" => some (.buffer { (Buffer.new "T" [3] 0 : Buffer Int) with data := arr1 0 [1, 2, 3] })
    | "kernel" => some (.kernel (.grw 1))
    | "density" => some (.tempered ⟨⟨Toy.target, []⟩, Toy.target⟩)
    | _ => none
  pos := fun _ => 0

def Toy.temperStrat : ParallelTempering := ⟨2, "density", "kernel", ["P", "T"], "state"⟩

example (b : Bool) : TemperSite Toy.temperStrat (Toy.temperHeap b) Toy.rng Toy.start.length 2 "P" "T" (Buffer.new "P" [2, 2, 1] 2)
    { (Buffer.new "T" [3] 0 : Buffer Int) with data := arr1 0 [1, 2, 3] } (fun k x lp t data => grwKernel Toy.rng 1 k x lp t data)
    ⟨⟨Toy.target, []⟩, Toy.target⟩ (.bool b) where
  names := ⟨[], rfl⟩
  ne := by decide
  kernel := ⟨.grw 1, rfl, rfl⟩
  density := rfl
  posBuf := rfl
  tempBuf := rfl
  state := ⟨_, rfl, rfl⟩
  posShape := rfl
  tempShape := rfl
  posDim := by decide
  tempDim := rfl

end FlowMC
