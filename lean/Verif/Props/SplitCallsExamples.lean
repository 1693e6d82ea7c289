import Verif.Props.SplitCalls
import Verif.Props.ChainAveragesExamples
/-
Non-vacuity of C119: a random walk called several times, with and without thinning.
-/
open MeasureTheory ProbabilityTheory
open scoped ENNReal
set_option linter.unusedSectionVars false
namespace FlowMC
open Spec
namespace Ideal

/-- The random walk with `n` steps and thinning `t`. -/
def walkBy (n t : ℕ) : TakeSteps := { walkStepper with nSteps := n, thinning := t }

theorem walkBy_exact (k : Key) (n t : ℕ) : ExactStepper (Desc k) prob sig env mixHeap.res ⟨(), none⟩ (stdNormal 2) (walkBy n t) := mix_exactWalk k

/-- The heap after some calls of the random walk. -/
def WalkReady (cap cur : ℕ) (h : Heap ℝ Unit 2 Unit Unit) : Prop :=
  (∀ n, n ≠ "P" → n ≠ "L" → n ≠ "A" → h.res n = mixHeap.res n) ∧ (∃ bP bL bA, Recorders h 2 cap "P" "L" "A" bP bL bA) ∧ h.pos "w" = cur

theorem walk_pointsAt {cap cur : ℕ} {h : Heap ℝ Unit 2 Unit Unit} (hh : WalkReady cap cur h) (n t : ℕ) : PointsAt h (walkBy n t) "P" "L" "A" :=
  ⟨_, "p", "l", "a", [], (hh.1 "state" (by decide) (by decide) (by decide)).trans rfl, rfl, rfl, rfl, rfl⟩

theorem walk_ready (c : ℕ) : WalkReady c 0 (longHeap c) := ⟨fun n h1 h2 h3 => by simp only [longHeap], ⟨_, _, _, long_recorders c⟩, rfl⟩

theorem walk_once (ω : Outcome) (n t cap cur : ℕ) (hn : 0 < n) (ht : 0 < t) (hd : t ∣ n) (w : World ℝ Unit 2 Unit Unit) (hx : w.xs.length = 2) (hh : WalkReady cap cur w.heap) (hfit : cur + n / t ≤ cap) :
    ∃ w1 : World ℝ Unit 2 Unit Unit, (walkBy n t).run (env ω) w.key w.xs ⟨(), none⟩ w.heap = (.ok (w1.key, w1.xs), w1.heap) ∧ w1.xs.length = 2 ∧ WalkReady cap (cur + n / t) w1.heap := by
  obtain ⟨bP, bL, bA, hr⟩ := hh.2.1
  have hceil : ceilDiv' n t = n / t := by
    obtain ⟨c, rfl⟩ := hd
    unfold ceilDiv'
    rw [Nat.mul_div_cancel_left _ ht, show t * c + t - 1 = (t - 1) + t * c by omega, Nat.add_mul_div_left _ _ ht, Nat.div_eq_of_lt (by omega)]
    omega
  obtain ⟨ys, h', e, he, hl, -⟩ := serial_call (env ω) (walkBy n t) w.key w.xs ⟨(), none⟩ w.heap cap "P" "L" "A" bP bL bA (walk_pointsAt hh n t) (by rw [hx]; exact hr)
    (by show w.heap.pos "w" + ceilDiv' n t ≤ cap; rw [hh.2.2, hceil]; exact hfit) (.grw (1 / 2)) _ target
    ⟨rfl, (hh.1 "walk" (by decide) (by decide) (by decide)).trans rfl, rfl, ⟨_, (hh.1 "logpdf" (by decide) (by decide) (by decide)).trans rfl, rfl⟩⟩ ht hn
  rw [hx] at he hl
  refine ⟨⟨_, ys, h'⟩, e, hl, fun m h1 h2 h3 => (he.frame m h1 h2 h3).trans (hh.1 m h1 h2 h3), ?_, by rw [show h'.pos "w" = w.heap.pos "w" + n / t from he.cursor, hh.2.2]⟩
  obtain ⟨bP1, p1, p2⟩ := he.pos
  obtain ⟨bL1, l1, l2⟩ := he.logp
  obtain ⟨bA1, a1, a2⟩ := he.acc
  exact ⟨bP1, bL1, bA1, p1, l1, a1, by rw [p2.same.2.2.2, hr.shapeP], by rw [l2.same.2.2.2, hr.shapeL], by rw [a2.same.2.2.2, hr.shapeA], by rw [p2.same.2.2.1, hr.dimP],
    by rw [l2.same.2.2.1, hr.dimL], by rw [a2.same.2.2.1, hr.dimA], by decide⟩

/-- `m` calls of the random walk. -/
theorem walk_calls (ω : Outcome) (n t cap : ℕ) (hn : 0 < n) (ht : 0 < t) (hd : t ∣ n) (m : ℕ) (hfit : m * (n / t) ≤ cap) (w0 : World ℝ Unit 2 Unit Unit) (hx : w0.xs.length = 2) (h0 : WalkReady cap 0 w0.heap) :
    ∃ w : ℕ → World ℝ Unit 2 Unit Unit, w 0 = w0 ∧ ((w m).xs.length = 2 ∧ WalkReady cap (m * (n / t)) (w m).heap) ∧
      ∀ p < m, (walkBy n t).run (env ω) (w p).key (w p).xs ⟨(), none⟩ (w p).heap = (.ok ((w (p + 1)).key, (w (p + 1)).xs), (w (p + 1)).heap) := by
  induction m with
  | zero => exact ⟨fun _ => w0, rfl, ⟨hx, by simpa using h0⟩, fun p hp => absurd hp (by omega)⟩
  | succ m ih =>
    obtain ⟨w, e0, ⟨hl, hh⟩, hc⟩ := ih (by rw [Nat.add_mul] at hfit; omega)
    obtain ⟨w1, e, hl1, hh1⟩ := walk_once ω n t cap _ hn ht hd (w m) hl hh (by rw [Nat.add_mul] at hfit; omega)
    refine ⟨fun p => if p ≤ m then w p else w1, by simp [e0], ⟨by simpa using hl1, ?_⟩, fun p hp => ?_⟩
    · beta_reduce
      rw [if_neg (show ¬ m + 1 ≤ m by omega), Nat.add_mul, Nat.one_mul]; exact hh1
    · rcases Nat.lt_or_ge p m with h | h
      · simp only [show p ≤ m by omega, show p + 1 ≤ m by omega, if_true]
        exact hc p h
      · obtain rfl : p = m := by omega
        simp only [le_refl, if_true, show ¬ p + 1 ≤ p by omega, if_false]
        exact e

/-- Non-vacuity of C119: the random walk with `3 * c` steps and thinning `3`, started at a point `x`, called `m` times, against one call with `m * (3 * c - 2)` steps. -/
example (x : Pos ℝ 2) (c m : ℕ) (hc : 0 < c) (hm : 0 < m) : ∃ (w : ℕ → Outcome → World ℝ Unit 2 Unit Unit) (v : Outcome → World ℝ Unit 2 Unit Unit) (b b' : Outcome → Buffer ℝ),
    (∀ ω, w 0 ω = ⟨.root 3, [start ω, x], longHeap (m * c)⟩) ∧
    (∀ p < m, ∀ ω, (walkBy (3 * c) 3).run (env ω) (w p ω).key (w p ω).xs ⟨(), none⟩ (w p ω).heap = (.ok ((w (p + 1) ω).key, (w (p + 1) ω).xs), (w (p + 1) ω).heap)) ∧
    (∀ ω, (walkBy (m * (3 * c - 2)) 1).run (env ω) (.root 3) [start ω, x] ⟨(), none⟩ (longHeap (m * (3 * c - 2))) = (.ok ((v ω).key, (v ω).xs), (v ω).heap)) ∧
    (∀ ω, (w m ω).heap.res "P" = some (.buffer (b ω))) ∧ (∀ ω, (v ω).heap.res "P" = some (.buffer (b' ω))) ∧
    prob.map (fun ω (r : Fin (m * (3 * c / 3))) (a : Fin 2) => (b ω).data.get [1, 0 + r, a]) =
      prob.map (fun ω (r : Fin (m * (3 * c / 3))) (a : Fin 2) => (b' ω).data.get [1, 0 + (r / (3 * c / 3) * (3 * c - 3 + 1) + r % (3 * c / 3) * 3), a]) := by
  have hdc : 3 * c / 3 = c := by omega
  have hq : 3 * c - 3 + 1 = 3 * c - 2 := by omega
  choose w e0 hw hcalls using fun ω => walk_calls ω (3 * c) 3 (m * c) (by omega) (by omega) (Dvd.intro c rfl) m (by rw [hdc]) ⟨.root 3, [start ω, x], longHeap (m * c)⟩ rfl (walk_ready _)
  choose v hv hv2 using fun ω => walk_once ω (m * (3 * c - 2)) 1 (m * (3 * c - 2)) 0 (Nat.mul_pos hm (by omega)) (by omega) (one_dvd _) ⟨.root 3, [start ω, x], longHeap (m * (3 * c - 2))⟩ rfl (walk_ready _)
    (by simp)
  obtain ⟨b, b', hb, hb', -, key⟩ := C119_thinned (.root 3) (drawsFrom _) mixHeap.res ⟨(), none⟩ (stdNormal 2) (walkBy (3 * c) 3) (walkBy_exact _ _ _) (show 0 < 3 * c by omega) (Dvd.intro c rfl) 1 (fun _ => x)
    (fun _ => x) measurable_const measurable_const rfl m hm (fun p ω => w ω p) (fun ω => by rw [e0]) (fun ω => by rw [e0]; exact long_keeps _) (fun ω => by rw [e0]; rfl) 2 (m * c) 0 (fun ω => by rw [e0]; rfl)
    "P" "L" "A" _ _ _ (fun ω => by rw [e0]; exact walk_pointsAt (walk_ready _) _ _) (fun ω => by rw [e0]; exact long_recorders _) (fun ω => by rw [e0]; rfl)
    (by show 0 + m * (3 * c / 3) ≤ m * c; rw [hdc]; omega) (fun p hp ω => hcalls ω p hp)
    (fun ω => ⟨.root 3, [start ω, x], longHeap (m * (3 * c - 2))⟩) v (fun _ => rfl) (fun _ => long_keeps _) (fun _ => rfl) 2 (m * (3 * c - 2)) 0 (fun _ => rfl) "P" "L" "A" _ _ _
    (fun _ => walk_pointsAt (walk_ready _) _ _) (fun _ => long_recorders _) (fun _ => rfl) (by show 0 + m * (3 * c - 3 + 1) ≤ m * (3 * c - 2); rw [hq]; omega)
    (fun ω => by show (walkBy (m * (3 * c - 3 + 1)) 1).run _ _ _ _ _ = _; rw [hq]; exact hv ω)
  exact ⟨fun p ω => w ω p, v, b, b', e0, fun p hp ω => hcalls ω p hp, hv, hb, hb', key⟩

/-- Non-vacuity of C119 without thinning: `m` calls with `n` steps against one call with `m * n` steps. -/
example (x : Pos ℝ 2) (n m : ℕ) (hn : 0 < n) (hm : 0 < m) : ∃ (w : ℕ → Outcome → World ℝ Unit 2 Unit Unit) (v : Outcome → World ℝ Unit 2 Unit Unit) (b b' : Outcome → Buffer ℝ),
    (∀ ω, w 0 ω = ⟨.root 3, [start ω, x], longHeap (m * n)⟩) ∧
    (∀ p < m, ∀ ω, (walkBy n 1).run (env ω) (w p ω).key (w p ω).xs ⟨(), none⟩ (w p ω).heap = (.ok ((w (p + 1) ω).key, (w (p + 1) ω).xs), (w (p + 1) ω).heap)) ∧
    (∀ ω, (walkBy (m * n) 1).run (env ω) (.root 3) [start ω, x] ⟨(), none⟩ (longHeap (m * n)) = (.ok ((v ω).key, (v ω).xs), (v ω).heap)) ∧
    (∀ ω, (w m ω).heap.res "P" = some (.buffer (b ω))) ∧ (∀ ω, (v ω).heap.res "P" = some (.buffer (b' ω))) ∧
    prob.map (fun ω (r : Fin (m * n)) (a : Fin 2) => (b ω).data.get [1, 0 + r, a]) = prob.map (fun ω (r : Fin (m * n)) (a : Fin 2) => (b' ω).data.get [1, 0 + r, a]) := by
  choose w e0 hw hcalls using fun ω => walk_calls ω n 1 (m * n) hn (by omega) (one_dvd _) m (by rw [Nat.div_one]) ⟨.root 3, [start ω, x], longHeap (m * n)⟩ rfl (walk_ready _)
  choose v hv hv2 using fun ω => walk_once ω (m * n) 1 (m * n) 0 (Nat.mul_pos hm hn) (by omega) (one_dvd _) ⟨.root 3, [start ω, x], longHeap (m * n)⟩ rfl (walk_ready _) (by simp)
  obtain ⟨b, b', hb, hb', -, key⟩ := C119_split (.root 3) (drawsFrom _) mixHeap.res ⟨(), none⟩ (stdNormal 2) (walkBy n 1) (walkBy_exact _ _ _) hn (one_dvd _) 1 (fun _ => x)
    (fun _ => x) measurable_const measurable_const rfl m hm (fun p ω => w ω p) (fun ω => by rw [e0]) (fun ω => by rw [e0]; exact long_keeps _) (fun ω => by rw [e0]; rfl) 2 (m * n) 0 (fun ω => by rw [e0]; rfl)
    "P" "L" "A" _ _ _ (fun ω => by rw [e0]; exact walk_pointsAt (walk_ready _) _ _) (fun ω => by rw [e0]; exact long_recorders _) (fun ω => by rw [e0]; rfl)
    (by show 0 + m * (n / 1) ≤ m * n; rw [Nat.div_one]; omega) (fun p hp ω => hcalls ω p hp)
    (fun ω => ⟨.root 3, [start ω, x], longHeap (m * n)⟩) v (fun _ => rfl) (fun _ => long_keeps _) (fun _ => rfl) 2 (m * n) 0 (fun _ => rfl) "P" "L" "A" _ _ _
    (fun _ => walk_pointsAt (walk_ready _) _ _) (fun _ => long_recorders _) (fun _ => rfl) rfl (by show 0 + m * n ≤ m * n; omega) hv
  exact ⟨fun p ω => w ω p, v, b, b', e0, fun p hp ω => hcalls ω p hp, hv, hb, hb', key⟩

end Ideal
end FlowMC
