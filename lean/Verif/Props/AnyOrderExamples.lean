import Verif.Props.AnyOrder
import Verif.Props.ComposeExamples
/-
Non-vacuity of C97: the sampler of `ComposeExamples` with a random walk, flow proposals, HMC, a note and a callable.
-/
open MeasureTheory ProbabilityTheory
open scoped ENNReal
set_option linter.unusedSectionVars false
namespace FlowMC
open Spec
namespace Ideal

def mixes (n : String) : Bool := n = "flow" || n = "walk"

theorem mixes_ok : ∀ name ∈ ["flow", "note", "rewind", "walk", "ham"], mixes name = true → ∃ ts, mixStrats name = some (.takeSteps ts) ∧ MixingStepper mixHeap.res ⟨(), none⟩ ts := by
  intro name hn hm
  simp only [mixes, Bool.or_eq_true, decide_eq_true_eq] at hm
  rcases hm with rfl | rfl
  · exact ⟨_, rfl, .inl rfl⟩
  · exact ⟨_, rfl, .inr ⟨_, _, target, rfl, rfl, rfl, by norm_num [MixingSettings]⟩⟩

/-- From one round "flow, note, rewind" on, the sampler can go on for ever: the callable rewinds the buffers. -/
theorem mix_round (ω : Outcome) (k : Key) (xs : List (Pos ℝ 2)) (hx : xs.length = 2) (h : Heap ℝ Unit 2 Unit Unit) (hh : MixReady h) (h0 : h.pos "f" = 0) :
    ∃ w', Completes (env ω) mixStrats ⟨(), none⟩ ["flow", "note", "rewind"] ⟨k, xs, h⟩ w' ∧ w'.xs.length = 2 ∧ MixReady w'.heap ∧ w'.heap.pos "f" = 0 := by
  obtain ⟨ys, h1, e1, hl, hr⟩ := mix_flow ω k xs hx h hh h0
  obtain ⟨st, hst⟩ := hr.2.1
  refine ⟨⟨.child k 0, ys, (h1.setRes "notes" (.state (st.update ["phase"] [.int 1]))).setPos "f" 0⟩, .next rfl e1 (.next rfl ?_ (.next rfl rfl (.done _))), hl, ?_, ?_⟩
  · simp only [Strategy.run, UpdateState.run, Heap.getState, Heap.get, hst]
    rfl
  · refine ⟨fun n a b c d => ?_, ?_, ?_, hr.2.2.2⟩
    · simpa [Heap.setPos, Heap.setRes, dictSet, d] using hr.1 n a b c d
    · exact ⟨_, by simp [Heap.setPos, Heap.setRes, dictSet]; rfl⟩
    · obtain ⟨bP, bL, bA, q⟩ := hr.2.2.1
      exact ⟨bP, bL, bA, ⟨q.resP, q.resL, q.resA, q.shapeP, q.shapeL, q.shapeA, q.dimP, q.dimL, q.dimA, q.ne⟩⟩
  · simp [Heap.setPos]

def rounds : ℕ → List String
  | 0 => []
  | n + 1 => ["flow", "note", "rewind"] ++ rounds n

theorem rounds_sub (n : ℕ) : ∀ a ∈ rounds n, a ∈ ["flow", "note", "rewind", "walk", "ham"] := by
  induction n with
  | zero => simp [rounds]
  | succ n ih =>
    intro a ha
    rcases List.mem_append.1 ha with h | h
    · revert h; simp; tauto
    · exact ih a h

theorem rounds_count (n : ℕ) : (rounds n).countP mixes = n := by
  induction n with
  | zero => rfl
  | succ n ih => rw [rounds, List.countP_append, ih]; simp [mixes]; omega

theorem mix_rounds (ω : Outcome) (n : ℕ) : ∀ (k : Key) (xs : List (Pos ℝ 2)) (_ : xs.length = 2) (h : Heap ℝ Unit 2 Unit Unit) (_ : MixReady h) (_ : h.pos "f" = 0),
    ∃ w', Completes (env ω) mixStrats ⟨(), none⟩ (rounds n) ⟨k, xs, h⟩ w' ∧ w'.xs.length = 2 ∧ MixReady w'.heap := by
  induction n with
  | zero => exact fun k xs hx h hh _ => ⟨_, .done _, hx, hh⟩
  | succ n ih =>
    intro k xs hx h hh h0
    obtain ⟨w1, a, b, c, e⟩ := mix_round ω k xs hx h hh h0
    obtain ⟨w2, a2, b2⟩ := ih w1.key w1.xs b w1.heap c e
    exact ⟨w2, completes_append.2 ⟨w1, a, a2⟩, b2⟩

/-- A start that is not distributed like the target. -/
noncomputable def wideStart (ω : Outcome) : Pos ℝ 2 := fun i => 1 + 3 * start2 ω i

theorem wideStart_known : Measurable[past] wideStart := (by fun_prop : Measurable fun (y : Pos ℝ 2) (i : Fin 2) => 1 + 3 * y i).comp start2_known

theorem wideStart_ac : prob.map wideStart ≪ volume := by
  have e : wideStart = (fun y i => 1 + 3 * y i) ∘ start2 := rfl
  rw [e, ← Measure.map_map (by fun_prop) (start2_known.mono draws.past_le le_rfl), start2_law, stdNormal_affine (fun _ => 1) 3 (by norm_num)]
  exact withDensity_absolutelyContinuous _ _

/-- Non-vacuity of C97 (any order): for every `ε` there are long runs of the hand-made sampler, and the second chain ends within `ε` of the target; between the marked calls HMC may be called as well. -/
example (ε : ℝ) (hε : 0 < ε) : ∃ (names : List String) (w' : Outcome → World ℝ Unit 2 Unit Unit),
    (∀ ω, Completes (env ω) mixStrats ⟨(), none⟩ names ⟨.root 3, [start ω, wideStart ω], mixHeap⟩ (w' ω)) ∧
    ∃ Y : Outcome → Pos ℝ 2, (∀ ω, (w' ω).xs[1]? = some (Y ω)) ∧ Measurable Y ∧ CloseInLaw prob Y (stdNormal 2) ε := by
  obtain ⟨N, hN⟩ := C97_any_order (.root 3) (drawsFrom _) mixHeap.res ⟨(), none⟩ (stdNormal 2) mixStrats ["flow", "note", "rewind", "walk", "ham"] (mix_exact _ _) mixes mixes_ok _ wideStart_known wideStart_ac ε hε
  choose w' h1 _ _ using fun ω => mix_rounds ω N (.root 3) [start ω, wideStart ω] rfl mixHeap mixReady_start rfl
  exact ⟨rounds N, w', h1, (hN (rounds N) (rounds_sub N) (rounds_count N).ge (fun ω => ⟨.root 3, [start ω, wideStart ω], mixHeap⟩) w' 1 (fun _ => rfl) (fun _ => mix_keeps mixReady_start)
    (fun _ => rfl) h1).1⟩

/-- Non-vacuity of C97 (any start): without HMC, from a fixed point. -/
example (x : Pos ℝ 2) (ε : ℝ) (hε : 0 < ε) : ∃ (names : List String) (w' : Outcome → World ℝ Unit 2 Unit Unit),
    (∀ ω, Completes (env ω) mixStrats ⟨(), none⟩ names ⟨.root 3, [start ω, x], mixHeap⟩ (w' ω)) ∧
    ∃ Y : Outcome → Pos ℝ 2, (∀ ω, (w' ω).xs[1]? = some (Y ω)) ∧ Measurable Y ∧ CloseInLaw prob Y (stdNormal 2) ε := by
  obtain ⟨N, hN⟩ := C97_any_start (.root 3) (drawsFrom _) mixHeap.res ⟨(), none⟩ (stdNormal 2) mixStrats ["flow", "note", "rewind", "walk"] (mix_exact _ _) mixes
    (fun n hn => mixes_ok n (by revert hn; simp; tauto)) (by
      intro name hn hm ts
      simp only [List.mem_cons, List.not_mem_nil, or_false] at hn
      rcases hn with rfl | rfl | rfl | rfl
      · simp [mixes] at hm
      · simp [mixStrats]
      · simp [mixStrats]
      · simp [mixes] at hm) (fun _ => x) measurable_const ε hε
  choose w' h1 _ _ using fun ω => mix_rounds ω N (.root 3) [start ω, x] rfl mixHeap mixReady_start rfl
  have sub : ∀ n, ∀ a ∈ rounds n, a ∈ ["flow", "note", "rewind", "walk"] := by
    intro n
    induction n with
    | zero => simp [rounds]
    | succ n ih =>
      intro a ha
      rcases List.mem_append.1 ha with h | h
      · revert h; simp; tauto
      · exact ih a h
  exact ⟨rounds N, w', h1, (hN (rounds N) (sub N) (rounds_count N).ge (fun ω => ⟨.root 3, [start ω, x], mixHeap⟩) w' 1 (fun _ => rfl) (fun _ => mix_keeps mixReady_start) (fun _ => rfl) h1).1⟩

end Ideal
end FlowMC
