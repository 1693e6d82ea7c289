import Verif.Spec.Training
import Verif.Lemmas.Basic
import Verif.Lemmas.Toy
import Verif.Jax.Ieee
/-
AdamOptimization: C53, C54.
-/
set_option linter.unusedSectionVars false
namespace FlowMC
open Spec

variable {F D : Type} {d : Nat} {M O : Type}
variable [Zero F] [One F] [Add F] [Mul F] [Div F] [Sub F] [Neg F] [NatCast F] [Transc F] [FCmp F]

/-- The bound that applies to coordinate `i`: row `i`, or the only row if there is just one. -/
def Spec.boundOf (bounds : List (F × F)) (i : Nat) : Option (F × F) := if bounds.length = 1 then bounds[0]? else bounds[i]?

/-- `x` lies in the box `[lo, hi]` given by the values of its end points, or is not a number. -/
def Spec.WithinOrNaN {L : Type} [LinearOrder L] (ord : F → Option L) (b : F × F) (x : F) : Prop :=
  ∀ v, ord x = some v → (∀ lo, ord b.1 = some lo → lo ≤ v) ∧ (∀ hi, ord b.2 = some hi → v ≤ hi)

theorem clip_within {L : Type} [LinearOrder L] (ord : F → Option L) (hord : LossOrder F ord) (b : F × F) (lo hi : L) (h1 : ord b.1 = some lo)
    (h2 : ord b.2 = some hi) (hle : lo ≤ hi) (x : F) : WithinOrNaN ord b (fminB (fmaxB x b.1) b.2) := by
  intro v hv
  rw [h1, h2]
  simp only [Option.some.injEq, forall_eq']
  have hmax : ∀ w, ord (fmaxB x b.1) = some w → lo ≤ w := by
    intro w hw
    unfold fmaxB at hw
    split at hw
    · rw [h1] at hw; cases hw; exact le_refl _
    · rename_i hc
      by_contra hcon
      exact hc ((hord _ _).2 ⟨w, lo, hw, h1, not_le.1 hcon⟩)
  unfold fminB at hv
  split at hv
  · rw [h2] at hv; cases hv; exact ⟨hle, le_refl _⟩
  · rename_i hc
    refine ⟨hmax v hv, ?_⟩
    by_contra hcon
    exact hc ((hord _ _).2 ⟨hi, v, h2, hv, not_le.1 hcon⟩)

theorem projectionBox_within {L : Type} [LinearOrder L] (ord : F → Option L) (hord : LossOrder F ord) (bounds : List (F × F)) (x : Pos F d) (i : Fin d)
    (b : F × F) (hb : boundOf bounds i = some b) (lo hi : L) (h1 : ord b.1 = some lo) (h2 : ord b.2 = some hi) (hle : lo ≤ hi) :
    WithinOrNaN ord b (projectionBox bounds x i) := by
  unfold boundOf at hb
  unfold projectionBox
  rw [hb]
  exact clip_within ord hord b lo hi h1 h2 hle (x i)

/-- **C53.** After at least one step, each coordinate of each optimised position lies within the bound that applies to it (or is NaN, if the objective
produced one): for any objective, gradient, solver (hence any learning rate), noise level, key and start positions, any arithmetic whose `<` is a
linear order on non-NaN numbers, and all bounds with `lo ≤ hi`.  There is one result per chain. -/
theorem C53_bounds {L : Type} [LinearOrder L] (ord : F → Option L) (hord : LossOrder F ord) (rng : Rng F) (a : AdamOptimization F D d)
    (data : Data D) (k : Key) (xs : List (Pos F d)) (hn : 0 < a.nSteps)
    (hbounds : ∀ b ∈ a.bounds, ∃ lo hi, ord b.1 = some lo ∧ ord b.2 = some hi ∧ lo ≤ hi)
    (k' : Key) (ys : List (Pos F d)) (lps : List F) (hrun : a.optimize rng data k xs = .ok (k', ys, lps)) :
    ys.length = xs.length ∧ lps = ys.map (fun y => a.logpdf.val y data) ∧
    ∀ y ∈ ys, ∀ i : Fin d, ∃ b, boundOf a.bounds i = some b ∧ WithinOrNaN ord b (y i) := by
  unfold AdamOptimization.optimize at hrun
  split at hrun
  · rename_i hlen
    simp only [Except.ok.injEq, Prod.mk.injEq] at hrun
    obtain ⟨_, rfl, rfl⟩ := hrun
    refine ⟨by simp [splitN_length], rfl, ?_⟩
    intro y hy i
    obtain ⟨⟨kk, x⟩, _, rfl⟩ := List.mem_map.1 hy
    have hb : ∃ b, boundOf a.bounds i = some b ∧ b ∈ a.bounds := by
      unfold boundOf
      split
      · rename_i h1
        exact ⟨a.bounds[0], by simp, List.getElem_mem _⟩
      · rename_i h1
        have : i.val < a.bounds.length := by have := i.isLt; omega
        exact ⟨a.bounds[i.val], by simp [this], List.getElem_mem _⟩
    obtain ⟨b, hb, hmem⟩ := hb
    obtain ⟨lo, hi, h1, h2, hle⟩ := hbounds b hmem
    refine ⟨b, hb, ?_⟩
    unfold AdamOptimization.single
    obtain ⟨n, hnn⟩ : ∃ n, a.nSteps = n + 1 := ⟨a.nSteps - 1, by omega⟩
    rw [hnn]
    simp only [Nat.repeat, AdamOptimization.kernel]
    exact projectionBox_within ord hord a.bounds _ i b hb lo hi h1 h2 hle
  · cases hrun

/-- Over the reals: `lo ≤ x ≤ hi` for every coordinate. -/
theorem C53_bounds_real (rng : Rng ℝ) (a : AdamOptimization ℝ D d) (data : Data D) (k : Key) (xs : List (Pos ℝ d)) (hn : 0 < a.nSteps)
    (hbounds : ∀ b ∈ a.bounds, b.1 ≤ b.2) (k' : Key) (ys : List (Pos ℝ d)) (lps : List ℝ) (hrun : a.optimize rng data k xs = .ok (k', ys, lps)) :
    ∀ y ∈ ys, ∀ i : Fin d, ∃ b, boundOf a.bounds i = some b ∧ b.1 ≤ y i ∧ y i ≤ b.2 := by
  have hord : LossOrder ℝ (fun x : ℝ => some x) := by intro a b; simp
  intro y hy i
  obtain ⟨b, hb, hw⟩ := (C53_bounds (fun x : ℝ => some x) hord rng a data k xs hn (fun b hb => ⟨_, _, rfl, rfl, hbounds b hb⟩) k' ys lps hrun).2.2 y hy i
  exact ⟨b, hb, (hw _ rfl).1 _ rfl, (hw _ rfl).2 _ rfl⟩

/-- C53 needs at least one step: with `n_steps = 0` the positions are returned as they are, inside the bounds or not. -/
theorem C53_zero_steps (rng : Rng F) (a : AdamOptimization F D d) (data : Data D) (k : Key) (xs : List (Pos F d)) (hn : a.nSteps = 0)
    (hb : a.bounds.length = 1 ∨ a.bounds.length = d) :
    a.optimize rng data k xs = .ok (.child k 0, xs, xs.map (fun x => a.logpdf.val x data)) := by
  have hz : ((splitN (split k).2 xs.length).zip xs).map (fun p => a.single rng data p.1 p.2) = xs := by
    have : (fun p : Key × Pos F d => a.single rng data p.1 p.2) = Prod.snd := by
      funext p
      simp [AdamOptimization.single, hn, Nat.repeat]
    rw [this, List.map_snd_zip]
    simp [splitN_length]
  unfold AdamOptimization.optimize
  rw [if_pos hb]
  simp only [hz]
  rfl

/-- **C54, construction.** The constructor succeeds exactly on bounds of shape `(k, 2)` and raises `ValueError` otherwise. -/
theorem C54_constructor (logpdf : Target F D d) (n : Nat) (noise : F) (bounds : NDArr F) (solver : Solver F d) :
    ((∃ k, bounds.shape = [k, 2]) → ∃ a, AdamOptimization.new logpdf n noise bounds solver = .ok a ∧ a.nSteps = n ∧ a.logpdf = logpdf ∧
      a.noiseLevel = noise ∧ ∀ k i, bounds.shape = [k, 2] → i < k → a.bounds[i]? = some (bounds.get [i, 0], bounds.get [i, 1])) ∧
    ((¬ ∃ k, bounds.shape = [k, 2]) → AdamOptimization.new logpdf n noise bounds solver = .error .valueError) := by
  constructor
  · rintro ⟨k, hk⟩
    refine ⟨{ logpdf, nSteps := n, noiseLevel := noise, solver, bounds := (List.range k).map (fun i => (bounds.get [i, 0], bounds.get [i, 1])) },
      ?_, rfl, rfl, rfl, ?_⟩
    · simp [AdamOptimization.new, hk]
    · intro k' i hk' hi
      rw [hk] at hk'
      cases hk'
      simp [hi]
  · intro h
    unfold AdamOptimization.new
    split
    · rename_i k hk
      exact absurd ⟨k, hk⟩ h
    · rfl

/-- **C54, call.** A call raises `ValueError` exactly when the number of bound rows is neither 1 nor the dimension, and then nothing has been
drawn or evaluated (the result is the same in every world: for every PRNG, objective and solver); the resources come back untouched in every case. -/
theorem C54_call (rng : Rng F) (a : AdamOptimization F D d) (k : Key) (xs : List (Pos F d)) (data : Data D) (h : Heap F D d M O) :
    (a.run rng k xs data h).2.res = h.res ∧ (a.run rng k xs data h).2.pos = h.pos ∧
    (¬ (a.bounds.length = 1 ∨ a.bounds.length = d) → a.run rng k xs data h = (.error .valueError, h)) ∧
    (a.bounds.length = 1 ∨ a.bounds.length = d → ∃ ys, a.run rng k xs data h = (.ok (.child k 0, ys), h) ∧ ys.length = xs.length) := by
  by_cases hb : a.bounds.length = 1 ∨ a.bounds.length = d
  · have : a.run rng k xs data h = (.ok (.child k 0, ((splitN (split k).2 xs.length).zip xs).map (fun p => a.single rng data p.1 p.2)), h) := by
      simp only [AdamOptimization.run, AdamOptimization.optimize, if_pos hb, split]
    exact ⟨by rw [this], by rw [this], fun h => absurd hb h, fun _ => ⟨_, this, by simp [splitN_length]⟩⟩
  · have : a.run rng k xs data h = (.error .valueError, h) := by
      simp only [AdamOptimization.run, AdamOptimization.optimize, if_neg hb]
    exact ⟨by rw [this], by rw [this], fun _ => this, fun h => absurd h hb⟩

/-- A case that meets the hypotheses: two steps of gradient descent on `x²` in two dimensions with one broadcast bound. -/
example : ∃ (a : AdamOptimization ℝ Unit 2) (ys : List (Pos ℝ 2)) (k' : Key) (lps : List ℝ), 0 < a.nSteps ∧ (∀ b ∈ a.bounds, b.1 ≤ b.2) ∧
    a.optimize ⟨fun _ _ _ => 0, fun _ => 0, fun _ _ => [], fun _ _ _ => []⟩ ⟨(), none⟩ (Key.root 1) [fun _ => 5] = .ok (k', ys, lps) := by
  refine ⟨⟨⟨fun x _ => -(x 0)^2, fun x _ => fun i => -2 * x i⟩, 2, 10, [(-1, 1)], ⟨Unit, fun _ => (), fun g _ _ => (fun i => -g i, ())⟩⟩, _, _, _, by decide, ?_, rfl⟩
  intro b hb
  simp only [List.mem_singleton] at hb
  subst hb; norm_num

end FlowMC
