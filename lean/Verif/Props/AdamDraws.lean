import Verif.Spec.AdamDraws
import Verif.Props.FlowInit
import Verif.Props.Optimization
/-
C29 and C53 for a call of the optimisation strategy.
-/
set_option linter.unusedSectionVars false
namespace FlowMC
open Spec
noncomputable section
variable {F D : Type} {d : Nat} {M O : Type} [Zero F] [One F] [Add F] [Mul F] [Div F] [Sub F] [Neg F] [NatCast F] [Transc F] [FCmp F]

theorem repeat_adam (rng : Rng F) (a : AdamOptimization F D d) (data : Data D) (k : Key) (x : Pos F d) (n : ℕ) :
    Nat.repeat (a.kernel rng data) n (k, x, a.solver.init x) = (carryKey k n, noisyDescent a data (fun t => rng.normal (stepKey k t) 1 0) x n) := by
  induction n with
  | zero => rfl
  | succ n ih => rw [Nat.repeat, ih, carryKey_succ]; rfl

theorem stepKey_family (k : Key) : FreshFamily k (fun t => stepKey k t) :=
  ⟨fun t => .child 1 (desc_carryKey k t), fun i j hij h => C29_steps_disjoint k _ i j hij ⟨h, .refl⟩⟩

/-- **C29, optimisation.** A call of the optimisation strategy uses, for every chain and every step, a key of its own (none derived from another one, none derived from the key it returns), and
draws only one number with it: in every world chain `i` ends where the descent with these numbers as its noise ends. -/
theorem C29_optimization_draws (k : Key) : ∃ key : ℕ × ℕ → Key, FreshFamily k key ∧
    ∀ (a : AdamOptimization F D d) (data : Data D) (xs : List (Pos F d)) (rng : Rng F) (h h' : Heap F D d M O) (k' : Key) (ys : List (Pos F d)),
      a.run rng k xs data h = (.ok (k', ys), h') → (∀ i, ¬ Desc k' (key i) ∧ ¬ Desc (key i) k') ∧
        ys = xs.mapIdx (fun i x => (noisyDescent a data (fun t => rng.normal (key (i, t)) 1 0) x a.nSteps).1) := by
  refine ⟨fun i => stepKey (.child (.child k 1) i.1) i.2, ?_, ?_⟩
  · refine family_of_disjoint (fun i => desc_trans (desc_trans desc_child_self desc_child_self) ((stepKey_family _).1 i.2)) ?_
    rintro ⟨i, t⟩ ⟨i', t'⟩ hne a ⟨h1, h2⟩
    by_cases hi : i = i'
    · subst hi
      exact C29_steps_disjoint _ a t t' (fun e => hne (by rw [e])) ⟨h1, h2⟩
    · exact children_disjoint (a := a) hi ⟨desc_trans ((stepKey_family _).1 t) h1, desc_trans ((stepKey_family _).1 t') h2⟩
  · intro a data xs rng h h' k' ys hrun
    simp only [AdamOptimization.run, AdamOptimization.optimize] at hrun
    split at hrun
    · cases hrun
    · rename_i r hr
      split at hr
      · cases hr
        simp only [Prod.mk.injEq, Except.ok.injEq] at hrun
        obtain ⟨⟨rfl, rfl⟩, rfl⟩ := hrun
        have hb : ∀ (i t : ℕ), Desc (.child k 1) (stepKey (.child (.child k 1) i) t) := fun i t => desc_trans desc_child_self ((stepKey_family _).1 t)
        refine ⟨fun i => ⟨fun h1 => children_disjoint (k := k) (i := 0) (j := 1) (by decide) ⟨h1, hb _ _⟩,
          fun h1 => children_disjoint (k := k) (i := 1) (j := 0) (by decide) ⟨desc_trans (hb i.1 i.2) h1, .refl⟩⟩, ?_⟩
        apply List.ext_getElem?
        intro i
        simp only [List.getElem?_map, List.getElem?_mapIdx, List.getElem?_zip_eq_some, splitN, split, List.zip, List.getElem?_zipWith, List.getElem?_range]
        by_cases hi : i < xs.length
        · simp [hi, AdamOptimization.single, repeat_adam]
        · simp [hi, List.getElem?_eq_none (not_lt.1 hi)]
      · cases hr

/-- **C53, the call.** The positions a call of the strategy returns (to the next strategy) all lie within the bounds. -/
theorem C53_call {L : Type} [LinearOrder L] (ord : F → Option L) (hord : LossOrder F ord) (rng : Rng F) (a : AdamOptimization F D d)
    (data : Data D) (k : Key) (xs : List (Pos F d)) (hn : 0 < a.nSteps)
    (hbounds : ∀ b ∈ a.bounds, ∃ lo hi, ord b.1 = some lo ∧ ord b.2 = some hi ∧ lo ≤ hi)
    (h h' : Heap F D d M O) (k' : Key) (ys : List (Pos F d)) (hrun : a.run rng k xs data h = (.ok (k', ys), h')) :
    ys.length = xs.length ∧ ∀ y ∈ ys, ∀ i : Fin d, ∃ b, boundOf a.bounds i = some b ∧ WithinOrNaN ord b (y i) := by
  simp only [AdamOptimization.run] at hrun
  split at hrun
  · cases hrun
  · rename_i r hr
    simp only [Prod.mk.injEq, Except.ok.injEq] at hrun
    obtain ⟨⟨rfl, rfl⟩, rfl⟩ := hrun
    have := C53_bounds ord hord rng a data k xs hn hbounds r.1 r.2.1 r.2.2 hr
    exact ⟨this.1, this.2.2⟩

/-- A call that meets the hypotheses: two steps from one chain outside the broadcast bound. -/
example (h : Heap ℝ Unit 2 Unit Unit) : ∃ (a : AdamOptimization ℝ Unit 2) (ys : List (Pos ℝ 2)) (k' : Key), 0 < a.nSteps ∧ (∀ b ∈ a.bounds, b.1 ≤ b.2) ∧ ys.length = 1 ∧
    a.run ⟨fun _ _ _ => 0, fun _ => 0, fun _ _ => [], fun _ _ _ => []⟩ (Key.root 1) [fun _ => 5] ⟨(), none⟩ h = (.ok (k', ys), h) := by
  refine ⟨⟨⟨fun x _ => -(x 0)^2, fun x _ => fun i => -2 * x i⟩, 2, 10, [(-1, 1)], ⟨Unit, fun _ => (), fun g _ _ => (fun i => -g i, ())⟩⟩, _, _, by decide, ?_, rfl, rfl⟩
  intro b hb
  simp only [List.mem_singleton] at hb
  subst hb; norm_num

end
end FlowMC
