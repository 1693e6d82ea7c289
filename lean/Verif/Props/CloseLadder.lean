import Verif.Props.Exchange
import Verif.Spec.Ideal
/-
C124: how often replica exchange happens, and what it does when all exchanges happen.
-/
open MeasureTheory ProbabilityTheory
open scoped ENNReal
set_option linter.unusedSectionVars false
namespace FlowMC
open Spec
variable {F D : Type} {d : Nat} {M O Ω : Type}

theorem swapAt_mid {α : Type} (pre : List α) (a b : α) (rest : List α) : swapAt pre.length (pre ++ a :: b :: rest) = pre ++ b :: a :: rest := by
  induction pre with
  | nil => rfl
  | cons x pre ih => rw [List.length_cons, List.cons_append, swapAt_cons, ih, List.cons_append]

section
variable [Zero F] [One F] [Div F] [Sub F] [Mul F] [Transc F] [FCmp F]

theorem exchScan_true (rng : Rng F) (Ts : List F) (rest : List (Pos F d)) : ∀ (pre : List (Pos F d)) (a : Pos F d) (k : Key) (c : ExchCarry F d), c.positions = pre ++ a :: rest →
    (∀ f ∈ (exchScan rng Ts rest.length pre.length k c).2, f = true) → (exchScan rng Ts rest.length pre.length k c).1.positions = pre ++ rest ++ [a] := by
  induction rest with
  | nil => intro pre a k c hc _; simpa [exchScan] using hc
  | cons b rest ih =>
    intro pre a k c hc hf
    simp only [List.length_cons, exchScan, List.mem_cons, forall_eq_or_imp] at hf ⊢
    obtain ⟨h1, h2⟩ := hf
    have hp : (exchBody Ts (rng.uniform (split k).2) pre.length c).1.positions = (pre ++ [b]) ++ a :: rest := by
      have h1' := h1
      simp only [exchBody] at h1' ⊢
      rw [if_pos h1', hc, swapAt_mid, List.append_assoc]
      rfl
    have := ih (pre ++ [b]) a (split k).1 _ hp (by simpa using h2)
    simpa using this

/-- **C124 (rotation).** If every exchange of a sweep is accepted, the sweep moves the walker of the first temperature to the last one and every other walker one temperature down. -/
theorem C124_rotation (rng : Rng F) (l : TemperedPDF F D d) (data : Data D) (Ts : List F) (k : Key) (xs : List (Pos F d)) (hf : ∀ f ∈ (exchange rng l data Ts k xs).2, f = true) :
    (exchange rng l data Ts k xs).1.positions = xs.rotate 1 := by
  cases xs with
  | nil => rfl
  | cons a rest =>
    have := exchScan_true rng Ts rest [] a k ⟨a :: rest, (a :: rest).map (fun x => l.call x data)⟩ rfl (by simpa [exchange] using hf)
    simpa [exchange] using this
end

/-- **C124 (certain).** Two temperatures `T0 ≤ T1`: if the walker at the hotter one is at least as likely, they are exchanged, whatever the draw in (0,1). -/
theorem C124_certain (rng : Rng ℝ) (l : TemperedPDF ℝ D d) (data : Data D) (T0 T1 : ℝ) (h0 : 0 < T0) (h1 : T0 ≤ T1) (k : Key) (x y : Pos ℝ d) (hl : l.call x data ≤ l.call y data)
    (hu : ∀ a, 0 < rng.uniform a ∧ rng.uniform a < 1) : (exchange rng l data [T0, T1] k [x, y]).1.positions = [y, x] ∧ (exchange rng l data [T0, T1] k [x, y]).2 = [true] := by
  have hT : 1 / T1 ≤ 1 / T0 := one_div_le_one_div_of_le h0 h1
  have hr : 0 ≤ exchRatio [T0, T1] [l.call x data, l.call y data] 0 := by
    simp only [exchRatio, List.getD_cons_succ, List.getD_cons_zero]
    exact mul_nonneg_of_nonpos_of_nonpos (by linarith) (by linarith)
  have ha := C21_accept_certain _ (rng.uniform (split k).2) hr (hu _).1 (hu _).2
  simp [exchange, exchScan, exchBody, ha, swapAt]

section
variable {past : MeasurableSpace Ω} {sig : Key → MeasurableSpace Ω} [mΩ : MeasurableSpace Ω] {P : Measure Ω} [IsProbabilityMeasure P] {env : Ω → Env ℝ D d M O}

theorem uniform_below {k : Key} (h : IdealOn (Desc k) past sig P env) {a : Key} (ha : Desc k a) {s : ℝ} (hs : s ≤ 0) : P.real {ω | Real.log ((env ω).rng.uniform a) < s} = Real.exp s := by
  have hm : Measurable fun ω => (env ω).rng.uniform a := (h.uniform_meas a ha).mono (h.sig_le a) le_rfl
  have hset : MeasurableSet {u : ℝ | Real.log u < s} := measurableSet_lt Real.measurable_log measurable_const
  have e : P {ω | Real.log ((env ω).rng.uniform a) < s} = unif {u | Real.log u < s} := by
    rw [← h.uniform_law a ha, Measure.map_apply hm hset]
    rfl
  have e2 := C21_accept_probability s
  simp only [acceptTest_real] at e2
  rw [Measure.real, e, e2, min_eq_right (Real.exp_le_one_iff.2 hs), ENNReal.toReal_ofReal (Real.exp_pos _).le]

/-- **C124 (probability).** Two temperatures `T0 ≤ T1`: if the walker at the hotter one is less likely, they are exchanged with probability `exp (-(1/T0 - 1/T1) (l x - l y))`. -/
theorem C124_probability {k : Key} (h : IdealOn (Desc k) past sig P env) (l : TemperedPDF ℝ D d) (data : Data D) (T0 T1 : ℝ) (h0 : 0 < T0) (h1 : T0 ≤ T1) (x y : Pos ℝ d) (hl : l.call y data ≤ l.call x data) :
    P.real {ω | (exchange (env ω).rng l data [T0, T1] k [x, y]).2 = [true]} = Real.exp (-((1 / T0 - 1 / T1) * (l.call x data - l.call y data))) := by
  have hT : 1 / T1 ≤ 1 / T0 := one_div_le_one_div_of_le h0 h1
  have hr : -((1 / T0 - 1 / T1) * (l.call x data - l.call y data)) ≤ 0 := neg_nonpos.2 (mul_nonneg (by linarith) (by linarith))
  have e : ∀ ω, ((exchange (env ω).rng l data [T0, T1] k [x, y]).2 = [true]) = (Real.log ((env ω).rng.uniform (split k).2) < -((1 / T0 - 1 / T1) * (l.call x data - l.call y data))) := by
    intro ω
    have : exchRatio [T0, T1] [l.call x data, l.call y data] 0 = -((1 / T0 - 1 / T1) * (l.call x data - l.call y data)) := by
      simp only [exchRatio, List.getD_cons_succ, List.getD_cons_zero]
      ring
    simp [exchange, exchScan, exchBody, this, acceptTest_real]
  simp only [e]
  exact uniform_below h (.child 1 .refl) hr

/-- The keys a sweep draws with. -/
def scanKeys : Nat → Key → List Key
  | 0, _ => []
  | n + 1, k => (split k).2 :: scanKeys n (split k).1

theorem scanKeys_desc (n : Nat) : ∀ {k0 k : Key}, Desc k0 k → ∀ a ∈ scanKeys n k, Desc k0 a := by
  induction n with
  | zero => intro _ _ _ a ha; simp [scanKeys] at ha
  | succ n ih =>
    intro k0 k hk a ha
    rcases List.mem_cons.1 ha with rfl | ha
    · exact .child 1 hk
    · exact ih (.child 0 hk) a ha

theorem scanKeys_length (n : Nat) : ∀ k, (scanKeys n k).length = n := by
  induction n with
  | zero => intro _; rfl
  | succ n ih => intro k; simp [scanKeys, ih]

theorem exchScan_close (rng : Rng ℝ) (Ts : List ℝ) (g : Pos ℝ d → ℝ) (N : ℕ) (η R : ℝ) (hη : ∀ i, i + 1 < N → |1 / Ts.getD (i + 1) 0 - 1 / Ts.getD i 0| ≤ η) (n : ℕ) : ∀ (i : ℕ) (k : Key) (c : ExchCarry ℝ d),
    c.logps = c.positions.map g → c.positions.length = N → i + n < N → (∀ a ∈ c.positions, ∀ b ∈ c.positions, |g a - g b| ≤ R) → (∀ a ∈ scanKeys n k, Real.log (rng.uniform a) < -(η * R)) →
    ∀ f ∈ (exchScan rng Ts n i k c).2, f = true := by
  induction n with
  | zero => intro i k c _ _ _ _ _ f hf; simp [exchScan] at hf
  | succ n ih =>
    intro i k c hc hN hi hR hu f hf
    have hacc : acceptTest (rng.uniform (split k).2) (exchRatio Ts c.logps i) = true := by
      rw [acceptTest_real]
      refine (hu _ List.mem_cons_self).trans_le ?_
      have e1 : c.logps.getD i 0 = g (c.positions[i]'(by omega)) := by
        rw [hc, List.getD_eq_getElem?_getD, List.getElem?_eq_getElem (by simp; omega), Option.getD_some, List.getElem_map]
      have e2 : c.logps.getD (i + 1) 0 = g (c.positions[i + 1]'(by omega)) := by
        rw [hc, List.getD_eq_getElem?_getD, List.getElem?_eq_getElem (by simp; omega), Option.getD_some, List.getElem_map]
      rw [exchRatio, e1, e2]
      refine neg_le_of_abs_le ?_
      rw [abs_mul]
      have := hη i (by omega)
      exact mul_le_mul this (hR _ (List.getElem_mem _) _ (List.getElem_mem _)) (abs_nonneg _) ((abs_nonneg _).trans this)
    have hb : (exchBody Ts (rng.uniform (split k).2) i c).1.logps = (exchBody Ts (rng.uniform (split k).2) i c).1.positions.map g := by
      simp only [exchBody, if_pos hacc]
      rw [swapAt_map, hc]
    have hp : (exchBody Ts (rng.uniform (split k).2) i c).1.positions.Perm c.positions := by
      simp only [exchBody, if_pos hacc]
      exact swapAt_perm _ _
    simp only [exchScan, List.mem_cons] at hf
    rcases hf with rfl | hf
    · exact hacc
    · exact ih (i + 1) (split k).1 _ hb (hp.length_eq.trans hN) (by omega) (fun a ha b hb' => hR a (hp.mem_iff.1 ha) b (hp.mem_iff.1 hb')) (fun a ha => hu a (List.mem_cons_of_mem _ ha)) f hf

/-- **C124 (close).** If neighbouring inverse temperatures differ by at most `η` and the log-likelihoods of the `N` walkers by at most `R`, all exchanges of the sweep are accepted — the walkers are rotated — with probability at least
`1 - (N - 1) (1 - exp (-η R))`, whatever the distribution of the walkers and its dependence on the draws. -/
theorem C124_close {k : Key} (h : IdealOn (Desc k) past sig P env) (l : TemperedPDF ℝ D d) (data : Data D) (Ts : List ℝ) (N : ℕ) (η R : ℝ) (hη0 : 0 ≤ η) (hR0 : 0 ≤ R)
    (hη : ∀ i, i + 1 < N → |1 / Ts.getD (i + 1) 0 - 1 / Ts.getD i 0| ≤ η) (xs : Ω → List (Pos ℝ d)) (hN : ∀ ω, (xs ω).length = N) (hR : ∀ ω, ∀ a ∈ xs ω, ∀ b ∈ xs ω, |l.call a data - l.call b data| ≤ R) :
    1 - (N - 1 : ℕ) * (1 - Real.exp (-(η * R))) ≤
      P.real {ω | (∀ f ∈ (exchange (env ω).rng l data Ts k (xs ω)).2, f = true) ∧ (exchange (env ω).rng l data Ts k (xs ω)).1.positions = (xs ω).rotate 1} := by
  have hs : -(η * R) ≤ 0 := neg_nonpos.2 (mul_nonneg hη0 hR0)
  set s := -(η * R) with hsdef
  -- the event that all draws are small
  have good : ∀ ks : List Key, (∀ a ∈ ks, Desc k a) → 1 - ks.length * (1 - Real.exp s) ≤ P.real {ω | ∀ a ∈ ks, Real.log ((env ω).rng.uniform a) < s} := by
    intro ks
    induction ks with
    | nil => intro _; simp
    | cons a ks ih =>
      intro hk
      have h1 := ih fun b hb => hk b (List.mem_cons_of_mem _ hb)
      have h2 := uniform_below h (hk a List.mem_cons_self) hs
      have ma : ∀ b, Desc k b → MeasurableSet {ω | Real.log ((env ω).rng.uniform b) < s} := fun b hb =>
        measurableSet_lt (Real.measurable_log.comp ((h.uniform_meas b hb).mono (h.sig_le b) le_rfl)) measurable_const
      have hsub : {ω | ∀ b ∈ ks, Real.log ((env ω).rng.uniform b) < s} ⊆ {ω | ∀ b ∈ a :: ks, Real.log ((env ω).rng.uniform b) < s} ∪ {ω | Real.log ((env ω).rng.uniform a) < s}ᶜ := by
        intro ω hω
        by_cases ha : Real.log ((env ω).rng.uniform a) < s
        · refine Or.inl fun b hb => ?_
          rcases List.mem_cons.1 hb with rfl | hb
          · exact ha
          · exact hω b hb
        · exact Or.inr ha
      have h3 := (measureReal_mono hsub (measure_ne_top P _)).trans (measureReal_union_le _ _)
      rw [probReal_compl_eq_one_sub (ma a (hk a List.mem_cons_self)), h2] at h3
      rw [List.length_cons]
      push_cast
      linarith
  have g := good (scanKeys (N - 1) k) (scanKeys_desc _ .refl)
  rw [scanKeys_length] at g
  refine g.trans (measureReal_mono (fun ω hω => ?_) (measure_ne_top P _))
  have ht : ∀ f ∈ (exchange (env ω).rng l data Ts k (xs ω)).2, f = true := by
    rcases Nat.eq_zero_or_pos N with h0 | h0
    · have : xs ω = [] := List.length_eq_zero_iff.1 ((hN ω).trans h0)
      rw [this]
      intro f hf
      simp [exchange, exchScan] at hf
    · rw [exchange, hN ω]
      exact exchScan_close (env ω).rng Ts (fun x => l.call x data) N η R hη (N - 1) 0 k _ rfl (hN ω) (by omega) (hR ω) hω
  exact ⟨ht, C124_rotation _ _ _ _ _ _ ht⟩
end

theorem adaptLoop_still (accs : List (List Bool)) (ts : List ℝ) : ∀ (i : ℕ) (t : ℝ), 0 < i → (∀ j, i ≤ j → j + 1 < i + ts.length → exchangedFraction accs (j - 1) = exchangedFraction accs j) → adaptLoop accs i t t ts = ts := by
  induction ts with
  | nil => intro i t _ _; rfl
  | cons a ts ih =>
    intro i t hi hj
    cases ts with
    | nil => rfl
    | cons b ts =>
      have hd : damping accs (i - 1) = (0 : ℝ) := by
        rw [damping, accRate_fraction, accRate_fraction, Nat.sub_add_cancel hi, hj i le_rfl (by simp), sub_self, mul_zero]
      have he : t + (a - t) * Transc.exp (damping accs (i - 1)) = a := by
        rw [hd, show (Transc.exp (0 : ℝ)) = 1 from Real.exp_zero]
        ring
      simp only [adaptLoop]
      rw [he, ih (i + 1) a (by omega) fun j h1 h2 => hj j (by omega) (by simp at h2 ⊢; omega)]

/-- **C124 (adaptation).** Adaptation leaves the ladder as it is if all pairs of neighbouring temperatures exchange equally often, such as always or never — however unsuitable the ladder is. -/
theorem C124_adaptation (Ts : List ℝ) (accs : List (List Bool)) (he : ∀ j, j + 2 < Ts.length → exchangedFraction accs j = exchangedFraction accs (j + 1)) : adaptTemperature Ts accs = Ts := by
  cases Ts with
  | nil => rfl
  | cons t ts =>
    rw [adaptTemperature, adaptLoop_still accs ts 1 t one_pos]
    intro j h1 h2
    obtain ⟨j, rfl⟩ := Nat.exists_eq_add_of_le' h1
    exact he j (by simp; omega)

end FlowMC
