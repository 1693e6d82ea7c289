import Verif.Model.Hamiltonian
import Verif.Props.Collapse
import Verif.Lemmas.Gaussian
/-
C106: the energy reported by `HMC.get_initial_hamiltonian`.
-/
set_option linter.unusedSectionVars false
namespace FlowMC
open XR
noncomputable section

variable {D : Type} {d : ℕ}

/-- The energy the property asks for: minus the log-density plus half the sum of `m_j p_j²`, where `p_j = z_j / √m_j` is a momentum drawn from the normal distribution with precisions `m`. -/
def Spec.drawnEnergy (lp : ℝ) (m z : Fin d → ℝ) : ℝ := -lp + 1 / 2 * ∑ j, m j * (z j / Real.sqrt (m j)) ^ 2

open Spec

theorem sumFin_nan {n : ℕ} (f : Fin n → XR) (i : Fin n) (h : f i = nan) : sumFin f = nan := by
  induction n with
  | zero => exact i.elim0
  | succ n ih =>
    unfold sumFin
    rcases Fin.eq_zero_or_eq_succ i with rfl | ⟨j, rfl⟩
    · rw [h, nan_add]
    · rw [ih (fun i => f i.succ) j h, add_nan]

theorem entry_nan (z m : XR) (h : m = fin 0 ∨ ∃ r < 0, m = fin r) : z * (1 / Transc.sqrt m) * (z * (1 / Transc.sqrt m)) * m = nan := by
  rcases h with rfl | ⟨r, hr, rfl⟩
  · have e : (1 : XR) / Transc.sqrt (fin 0 : XR) = pinf := by
      rw [div_def]
      have : inv (Transc.sqrt (fin 0)) = pinf := by simp [Transc.sqrt, inv]
      rw [this]
      show mul (fin 1) pinf = pinf
      simp [mul]
    rw [e]
    rcases nf_mul_left (z * pinf) (nf_mul_right z (Or.inr (Or.inl rfl) : NotFinite pinf)) with h | h | h <;> rw [h, mul_def] <;> simp [mul, neg]
  · have e : (Transc.sqrt (fin r) : XR) = nan := by simp [Transc.sqrt, hr]
    rw [e, div_def]
    have : inv nan = nan := rfl
    rw [this, ← mul_def, mul_nan, mul_nan, nan_mul, nan_mul]

/-- **C106 fails of the code.** If some entry of the condition matrix is zero or negative, as in every diagonal matrix of dimension at least two, `get_initial_hamiltonian` returns NaN: for every
log-density, position, data, key and generator. -/
theorem C106_nan (rng : Rng XR) (metric : Mat XR d) (i j : Fin d) (h : metric i j = fin 0 ∨ ∃ r < 0, metric i j = fin r) (t : Target XR D d) (k : Key) (x : Pos XR d) (data : Data D) :
    hmcInitialHamiltonian rng metric t k x data = nan := by
  unfold hmcInitialHamiltonian hmcKineticArr hmcInitialMomentum
  rw [sumFin_nan _ i (sumFin_nan _ j (entry_nan _ _ h)), mul_nan, add_nan]

theorem unit_entry (z m : ℝ) (h : 0 < m) : z * (1 / Real.sqrt m) * (z * (1 / Real.sqrt m)) * m = z ^ 2 := by
  have hs : Real.sqrt m ≠ 0 := (Real.sqrt_pos.2 h).ne'
  field_simp
  rw [Real.sq_sqrt h.le]

theorem drawnEnergy_eq (lp : ℝ) (m z : Fin d → ℝ) (h : ∀ j, 0 < m j) : drawnEnergy lp m z = -lp + 1 / 2 * ∑ j, z j ^ 2 := by
  unfold drawnEnergy
  congr 2
  refine Finset.sum_congr rfl fun j _ => ?_
  rw [div_pow, Real.sq_sqrt (h j).le, mul_div_cancel₀ _ (h j).ne']

/-- **C106 fails of the code.** If all entries of the matrix are positive, the kinetic energy is `d` times that of the momentum drawn. -/
theorem C106_overcounts (rng : Rng ℝ) (metric : Mat ℝ d) (h : ∀ i j, 0 < metric i j) (t : Target ℝ D d) (k : Key) (x : Pos ℝ d) (data : Data D) :
    hmcInitialHamiltonian rng metric t k x data = -(t.val x data) + d * (1 / 2 * ∑ j, rng.normal k d j ^ 2) := by
  unfold hmcInitialHamiltonian hmcKineticArr hmcInitialMomentum
  have e : ∀ i j, rng.normal k d j * (1 / Transc.sqrt (metric i j)) * (rng.normal k d j * (1 / Transc.sqrt (metric i j))) * metric i j = rng.normal k d j ^ 2 :=
    fun i j => unit_entry _ _ (h i j)
  simp only [e, sumFin_eq, Finset.sum_const, Finset.card_univ, Fintype.card_fin, nsmul_eq_mul, two]
  ring

/-- **C106 (part).** With a positive number as condition matrix (any dimension), `get_initial_hamiltonian` is minus the log-density plus the kinetic energy of the momentum drawn. -/
theorem C106_scalar_partial (rng : Rng ℝ) (c : ℝ) (hc : 0 < c) (t : Target ℝ D d) (k : Key) (x : Pos ℝ d) (data : Data D) :
    hmcInitialHamiltonianScalar rng c t k x data = drawnEnergy (t.val x data) (fun _ => c) (rng.normal k d) := by
  unfold hmcInitialHamiltonianScalar
  have e : ∀ j, rng.normal k d j * (1 / Transc.sqrt c) * (rng.normal k d j * (1 / Transc.sqrt c)) * c = rng.normal k d j ^ 2 := fun j => unit_entry _ _ hc
  rw [drawnEnergy_eq _ _ _ fun _ => hc]
  simp only [e, sumFin_eq, two]
  norm_num

/-- **C106 (part).** In dimension one, with a positive entry, it is the energy the kernel computes for the momentum it draws with the same key. -/
theorem C106_one_partial (rng : Rng ℝ) (m : ℝ) (hm : 0 < m) (t : Target ℝ D 1) (k : Key) (x : Pos ℝ 1) (data : Data D) :
    hmcInitialHamiltonian rng (fun _ _ => m) t k x data = drawnEnergy (t.val x data) (fun _ => m) (rng.normal k 1) ∧
    hmcInitialHamiltonian rng (fun _ _ => m) t k x data =
      -(t.val x data) + hmcKinetic (fun _ _ => m) (hmcMomentum (fun _ _ => 1 / Real.sqrt m) (rng.normal k 1)) := by
  rw [C106_overcounts rng (fun _ _ => m) (fun _ _ => hm), drawnEnergy_eq _ _ _ fun _ => hm]
  refine ⟨by simp, ?_⟩
  simp only [hmcKinetic, hmcMomentum, sumFin_eq, Finset.univ_unique, Finset.sum_singleton, unit_entry _ _ hm, two]
  norm_num

/-- The full statement is refuted: in dimension two with the identity as condition matrix the value is NaN, whatever the target. -/
example (rng : Rng XR) (t : Target XR D 2) (k : Key) (x : Pos XR 2) (data : Data D) :
    hmcInitialHamiltonian rng (fun i j => if i = j then fin 1 else fin 0) t k x data = nan :=
  C106_nan rng _ 0 1 (Or.inl (by simp)) t k x data

/-- With the matrix of ones the kinetic energy is twice as large as it should be. -/
example (rng : Rng ℝ) (t : Target ℝ D 2) (k : Key) (x : Pos ℝ 2) (data : Data D) (hz : rng.normal k 2 = fun _ => 1) :
    hmcInitialHamiltonian rng (fun _ _ => 1) t k x data = -(t.val x data) + 2 ∧ drawnEnergy (t.val x data) (fun _ => 1) (rng.normal k 2) = -(t.val x data) + 1 := by
  rw [C106_overcounts rng _ (fun _ _ => one_pos), drawnEnergy_eq _ _ _ fun _ => one_pos, hz]
  norm_num

/-- The default condition matrix, the number 1. -/
example (rng : Rng ℝ) (t : Target ℝ D 3) (k : Key) (x : Pos ℝ 3) (data : Data D) :
    hmcInitialHamiltonianScalar rng 1 t k x data = drawnEnergy (t.val x data) (fun _ => 1) (rng.normal k 3) := C106_scalar_partial rng 1 one_pos t k x data

example (rng : Rng ℝ) (t : Target ℝ D 1) (k : Key) (x : Pos ℝ 1) (data : Data D) :
    hmcInitialHamiltonian rng (fun _ _ => 4) t k x data = drawnEnergy (t.val x data) (fun _ => 4) (rng.normal k 1) := (C106_one_partial rng 4 (by norm_num) t k x data).1

end
end FlowMC
