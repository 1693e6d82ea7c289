import Verif.Props.StepCall
import Verif.Jax.Ieee
/-
C20: proposals with NaN or -inf log-density are never accepted.
-/
set_option linter.unusedSectionVars false
namespace FlowMC
open Spec Ieee

variable {F D : Type} {d : Nat} {M O : Type}
variable [Zero F] [One F] [Add F] [Mul F] [Div F] [Sub F] [Neg F] [NatCast F] [Transc F] [FCmp F] [Ieee F]

theorem bad_sub {a : F} (b : F) (h : Bad a) : Bad (a - b) := by
  rcases h with h | h
  · exact Or.inl (nan_sub _ _ (Or.inl h))
  · subst h; rcases negInf_sub b with h | h
    · exact Or.inr h
    · exact Or.inl h

theorem bad_add {a : F} (b : F) (h : Bad a) : Bad (a + b) := by
  rcases h with h | h
  · exact Or.inl (nan_add _ _ (Or.inl h))
  · subst h; rcases negInf_add b with h | h
    · exact Or.inr h
    · exact Or.inl h

theorem not_lt_bad (a : F) {b : F} (h : Bad b) : FCmp.blt a b = false := by
  rcases h with h | h
  · exact lt_nan a b h
  · subst h; exact lt_negInf a

/-- Potential energy of a bad point: NaN or `+inf`, which makes every energy difference bad. -/
theorem bad_energy {v : F} (k H : F) (h : Bad v) : Bad (H - (-v + k)) := by
  rcases h with h | h
  · exact Or.inl (nan_sub _ _ (Or.inr (nan_add _ _ (Or.inl (nan_neg _ h)))))
  · subst h
    rw [neg_negInf]
    rcases posInf_add k with h | h
    · rw [h]
      rcases sub_posInf H with h | h
      · exact Or.inr h
      · exact Or.inl h
    · exact Or.inl (nan_sub _ _ (Or.inr h))

/-- C20 (local kernels). Whatever the key, position, step size and gradient: if GaussianRandomWalk, MALA or HMC reports an acceptance,
the log-density at the new position is neither NaN nor `-inf`. -/
theorem C20_kernel (rng : Rng F) (kr : KernelRes F d M) (K : LocalKernel F D d) (h : kr.local? rng = some K) (k : Key)
    (x : Pos F d) (lp : F) (t : Target F D d) (data : Data D) (hacc : (K k x lp t data).acc = true) :
    ¬ Bad (t.val (K k x lp t data).pos data) := by
  intro hbad
  cases kr with
  | grw s =>
    simp [KernelRes.local?] at h; subst h
    simp only [grwKernel, grwStep] at hacc hbad
    simp only [hacc, if_true] at hbad
    rw [acceptTest, not_lt_bad _ (bad_sub _ hbad)] at hacc
    exact Bool.noConfusion hacc
  | mala s =>
    simp [KernelRes.local?] at h; subst h
    simp only [malaKernel, malaStep] at hacc hbad
    simp only [hacc, if_true] at hbad
    rw [acceptTest, malaRatio, not_lt_bad _ (bad_add _ (bad_sub _ (bad_sub _ hbad)))] at hacc
    exact Bool.noConfusion hacc
  | hmc s n m L =>
    simp [KernelRes.local?] at h; subst h
    simp only [hmcKernel, hmcStep] at hacc hbad
    simp only [hacc, if_true] at hbad
    rw [acceptTest, not_lt_bad _ (bad_energy _ _ hbad)] at hacc
    exact Bool.noConfusion hacc
  | nf m b => simp [KernelRes.local?] at h

/-- C20 (flow kernel). An accepted flow proposal has a log-density that is neither NaN nor `-inf` — for any flow log-densities, finite
or not. -/
theorem C20_nf_kernel (u : F) (c : NFCarry F d) (p : Pos F d × F × F) (hacc : (nfBody u c p).2.acc = true) : ¬ Bad p.2.1 := by
  intro hbad
  simp only [nfBody] at hacc
  rw [acceptTest, not_lt_bad _ (bad_sub _ (bad_sub _ hbad))] at hacc
  exact Bool.noConfusion hacc

theorem local?_pos_cases (rng : Rng F) (kr : KernelRes F d M) (K : LocalKernel F D d) (h : kr.local? rng = some K) (k : Key)
    (x : Pos F d) (lp : F) (t : Target F D d) (data : Data D) (hx : ¬ Bad (t.val x data)) :
    ¬ Bad (t.val (K k x lp t data).pos data) := by
  cases hacc : (K k x lp t data).acc with
  | true => exact C20_kernel rng kr K h k x lp t data hacc
  | false => rw [local?_stays rng kr K h k x lp t data hacc]; exact hx

/-- C20 (chains). A serial chain of any length started where the log-density is neither NaN nor `-inf` never visits such a point. -/
theorem C20_chain (rng : Rng F) (kr : KernelRes F d M) (K : LocalKernel F D d) (h : kr.local? rng = some K)
    (t : Target F D d) (data : Data D) (n : Nat) (k : Key) (x : Pos F d) (hx : ¬ Bad (t.val x data)) :
    ∀ o ∈ serialSample K t data n k x, ¬ Bad (t.val o.pos data) := by
  have main : ∀ n k x lp, ¬ Bad (t.val x data) → ∀ o ∈ (scanN (localBody K t data) n (k, x, lp)).2, ¬ Bad (t.val o.pos data) := by
    intro n
    induction n with
    | zero => intro k x lp _ o ho; simp [scanN] at ho
    | succ n ih =>
      intro k x lp hx o ho
      have h1 := local?_pos_cases rng kr K h (split k).2 x lp t data hx
      simp only [scanN, List.mem_cons] at ho
      rcases ho with rfl | ho
      · exact h1
      · exact ih _ _ _ h1 o ho
  exact main n k x _ hx

/-- C20 (flow chains). -/
theorem C20_nf_chain (env : Env F D d M O) (hl : env.ops.Lawful) (m : M) (batch : Nat) (hb : 0 < batch)
    (t : Target F D d) (ht : IgnoresNSteps t) (data : Data D) (n : Nat) (k : Key) (x : Pos F d) (hx : ¬ Bad (t.val x data))
    (rows : List (StepOut F d)) (hr : groupSample env m batch t data n k x = .ok rows) :
    ∀ o ∈ rows, ¬ Bad (t.val o.pos data) := by
  obtain ⟨rows', h1, -, h3⟩ := C15_logp_nf env hl m batch hb t ht data n k x
  rw [hr] at h1
  simp only [Except.ok.injEq] at h1
  subst h1
  intro o ho
  rw [← h3 o ho]
  simp only [groupSample, nfKernel] at hr
  split at hr
  · simp at hr
  · simp only [Except.ok.injEq] at hr
    subst hr
    clear h3
    revert ho
    have main : ∀ (props : List (Pos F d × F × F)) (k : Key) (c : NFCarry F d), ¬ Bad c.logp →
        ∀ o ∈ nfScan env.rng k c props, ¬ Bad o.logp := by
      intro props
      induction props with
      | nil => intro k c _ o ho; simp [nfScan, scan] at ho
      | cons p ps ih =>
        intro k c hc o ho
        have hstep : ¬ Bad (nfBody (env.rng.uniform (split k).2) c p).1.logp := by
          cases hacc : (nfBody (env.rng.uniform (split k).2) c p).2.acc with
          | true =>
            have := C20_nf_kernel _ c p hacc
            have h2 := ((C16_nf (env.rng.uniform (split k).2) c p).2 hacc).2
            rw [show (nfBody (env.rng.uniform (split k).2) c p).1.logp = (nfBody (env.rng.uniform (split k).2) c p).2.logp from rfl, h2]
            exact this
          | false =>
            have h2 := ((C16_nf (env.rng.uniform (split k).2) c p).1 hacc).2
            rw [show (nfBody (env.rng.uniform (split k).2) c p).1.logp = (nfBody (env.rng.uniform (split k).2) c p).2.logp from rfl, h2]
            exact hc
        simp only [nfScan, scan, List.mem_cons] at ho
        rcases ho with rfl | ho
        · exact hstep
        · exact ih _ _ hstep o ho
    intro ho
    exact main _ _ _ hx o ho

/-- C20 (chains, any start). Every position a serial chain visits is the start itself or a point where the log-density is neither NaN nor `-inf`: for any start. -/
theorem C20_chain_or_start (rng : Rng F) (kr : KernelRes F d M) (K : LocalKernel F D d) (h : kr.local? rng = some K)
    (t : Target F D d) (data : Data D) (n : Nat) (k : Key) (x : Pos F d) :
    ∀ o ∈ serialSample K t data n k x, o.pos = x ∨ ¬ Bad (t.val o.pos data) := by
  have main : ∀ n k y lp, (y = x ∨ ¬ Bad (t.val y data)) → ∀ o ∈ (scanN (localBody K t data) n (k, y, lp)).2, o.pos = x ∨ ¬ Bad (t.val o.pos data) := by
    intro n
    induction n with
    | zero => intro k x lp _ o ho; simp [scanN] at ho
    | succ n ih =>
      intro k y lp hy o ho
      have h1 : (K (split k).2 y lp t data).pos = x ∨ ¬ Bad (t.val (K (split k).2 y lp t data).pos data) := by
        cases hacc : (K (split k).2 y lp t data).acc with
        | true => exact Or.inr (C20_kernel rng kr K h _ y lp t data hacc)
        | false => rw [local?_stays rng kr K h _ y lp t data hacc]; exact hy
      simp only [scanN, List.mem_cons] at ho
      rcases ho with rfl | ho
      · exact h1
      · exact ih _ _ _ h1 o ho
  exact main n k x _ (Or.inl rfl)

/-- C20 (flow chains, any start). -/
theorem C20_nf_chain_or_start (env : Env F D d M O) (hl : env.ops.Lawful) (m : M) (batch : Nat) (hb : 0 < batch)
    (t : Target F D d) (ht : IgnoresNSteps t) (data : Data D) (n : Nat) (k : Key) (x : Pos F d)
    (rows : List (StepOut F d)) (hr : groupSample env m batch t data n k x = .ok rows) :
    ∀ o ∈ rows, o.pos = x ∨ ¬ Bad (t.val o.pos data) := by
  obtain ⟨rows', h1, -, h3⟩ := C15_logp_nf env hl m batch hb t ht data n k x
  rw [hr] at h1
  simp only [Except.ok.injEq] at h1
  subst h1
  intro o ho
  rw [← h3 o ho]
  simp only [groupSample, nfKernel] at hr
  split at hr
  · simp at hr
  · simp only [Except.ok.injEq] at hr
    subst hr
    clear h3
    revert ho
    have main : ∀ (props : List (Pos F d × F × F)) (k : Key) (c : NFCarry F d), (c.pos = x ∨ ¬ Bad c.logp) →
        ∀ o ∈ nfScan env.rng k c props, o.pos = x ∨ ¬ Bad o.logp := by
      intro props
      induction props with
      | nil => intro k c _ o ho; simp [nfScan, scan] at ho
      | cons p ps ih =>
        intro k c hc o ho
        have hstep : (nfBody (env.rng.uniform (split k).2) c p).1.pos = x ∨ ¬ Bad (nfBody (env.rng.uniform (split k).2) c p).1.logp := by
          cases hacc : (nfBody (env.rng.uniform (split k).2) c p).2.acc with
          | true =>
            right
            have := C20_nf_kernel _ c p hacc
            have h2 := ((C16_nf (env.rng.uniform (split k).2) c p).2 hacc).2
            rw [show (nfBody (env.rng.uniform (split k).2) c p).1.logp = (nfBody (env.rng.uniform (split k).2) c p).2.logp from rfl, h2]
            exact this
          | false =>
            have h2 := ((C16_nf (env.rng.uniform (split k).2) c p).1 hacc)
            rw [show (nfBody (env.rng.uniform (split k).2) c p).1.logp = (nfBody (env.rng.uniform (split k).2) c p).2.logp from rfl, h2.2,
              show (nfBody (env.rng.uniform (split k).2) c p).1.pos = (nfBody (env.rng.uniform (split k).2) c p).2.pos from rfl, h2.1]
            exact hc
        simp only [nfScan, scan, List.mem_cons] at ho
        rcases ho with rfl | ho
        · exact hstep
        · exact ih _ _ hstep o ho
    intro ho
    exact main _ _ _ (Or.inl rfl) o ho

/-- C20 (recorded). After a serial step call from starts with good log-density, every recorded position has a log-density that is neither NaN
nor `-inf`, and so has every recorded log-probability. -/
theorem C20_recorded [BufNum F] (env : Env F D d M O) (s : TakeSteps) (k : Key) (xs : List (Pos F d)) (data : Data D)
    (h : Heap F D d M O) (T : Nat) (P L A : String) (bP bL bA : Buffer F) (hpt : PointsAt h s P L A)
    (hr : Recorders h xs.length T P L A bP bL bA) (hfit : h.pos s.ident + ceilDiv' s.nSteps s.thinning ≤ T)
    (kr : KernelRes F d M) (K : LocalKernel F D d) (t : Target F D d) (hs : SerialSite env s h kr K t)
    (ht : 0 < s.thinning) (hn : 0 < s.nSteps) (hx : ∀ x ∈ xs, ¬ Bad (t.val x data)) :
    ∃ ys h' bP' bL', s.run env k xs data h = (.ok (Key.child k 0, ys), h') ∧
      h'.res P = some (.buffer bP') ∧ h'.res L = some (.buffer bL') ∧
      ∀ i j, i < xs.length → j < ceilDiv' s.nSteps s.thinning →
        ¬ Bad (t.val (row3 bP'.data i (h.pos s.ident + j)) data) ∧ ¬ Bad (bL'.data.get [i, h.pos s.ident + j]) := by
  obtain ⟨ys, h', bP', h1, p1, -, -, hrow⟩ := C17_recorded env s k xs data h T P L A bP bL bA hpt hr hfit kr K t hs ht hn
  obtain ⟨ys2, h2', bP2, bL', h1', p1', l1', hlp⟩ := C14_recorded env s k xs data h T P L A bP bL bA hpt hr hfit kr K t hs ht hn
    Ieee.neg_neg
  rw [h1] at h1'
  simp only [Prod.mk.injEq, Except.ok.injEq] at h1'
  obtain ⟨⟨-, rfl⟩, rfl⟩ := h1'
  rw [p1] at p1'
  simp only [Option.some.injEq, Resource.buffer.injEq] at p1'
  subst p1'
  refine ⟨ys, h', bP', bL', h1, p1, l1', ?_⟩
  intro i j hi hj
  have hb : ¬ Bad (t.val (row3 bP'.data i (h.pos s.ident + j)) data) := by
    have := hrow i j hi hj
    rw [Option.map_eq_some_iff] at this
    obtain ⟨o, ho, hpos⟩ := this
    rw [← hpos]
    exact C20_chain env.rng kr K hs.isLocal t data s.nSteps _ _ (hx _ (List.getElem_mem hi)) o (List.mem_of_getElem? ho)
  exact ⟨hb, by rw [hlp i j hi hj]; exact hb⟩

/-- Non-vacuity of C20: on `XR` (reals with NaN and infinities) an infinite log-density is bad, a finite one is not, and a random-walk step towards a
point of finite, larger log-density is accepted. -/
example : Bad (XR.ninf) ∧ Bad (XR.nan) ∧ ¬ Bad (XR.fin 3) ∧
    (grwStep (d := 1) (XR.fin 1) ⟨fun x _ => x 0, fun _ _ _ => XR.fin 1⟩ (⟨(), none⟩ : Data Unit) (fun _ => XR.fin 1) (XR.fin 0)
      (fun _ => XR.fin 0) (XR.fin 0)).acc = true := by
  refine ⟨Or.inr rfl, Or.inl rfl, ?_, ?_⟩
  · rintro (h | h) <;> cases h
  · simp [grwStep, acceptTest, grwProposal, Transc.log, FCmp.blt, XR.blt, XR.sub_def, XR.add_def, HMul.hMul, Mul.mul, XR.mul, XR.add, XR.neg]

end FlowMC
