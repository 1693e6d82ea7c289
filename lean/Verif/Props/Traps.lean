import Verif.Props.Special
import Verif.Props.Bundles
import Verif.Props.Walls
import Verif.Props.TemperBundle
import Verif.Props.Totality
import Verif.Spec.Traps
/-
C111: points a chain cannot leave.
-/
set_option linter.unusedSectionVars false
namespace FlowMC
open Spec Ieee

section generic
variable {F D : Type} {d : Nat} {M O V : Type}
variable [Zero F] [One F] [Add F] [Mul F] [Div F] [Sub F] [Neg F] [NatCast F] [Transc F] [FCmp F] [Ieee F]

theorem frozen_sub (a : F) {b : F} (h : Frozen b) : Bad (a - b) := by
  rcases h with h | rfl
  · exact Or.inl (nan_sub _ _ (Or.inr h))
  · rcases sub_posInf a with h | h
    · exact Or.inr h
    · exact Or.inl h

theorem frozen_neg {a : F} (h : Frozen a) : Bad (-a) := by
  rcases h with h | rfl
  · exact Or.inl (nan_neg _ h)
  · right; rw [← neg_negInf (F := F), Ieee.neg_neg]

theorem accept_bad_false (u : F) {r : F} (h : Bad r) : acceptTest u r = false := not_lt_bad _ h

/-- C111 (one step). GaussianRandomWalk, MALA or HMC at a point whose log-density is NaN or `+inf` (and with that value as the carried
log-density): the step is rejected, position and log-density stay, whatever the key, the settings and the gradient. -/
theorem C111_frozen_step (rng : Rng F) (kr : KernelRes F d M) (K : LocalKernel F D d) (h : kr.local? rng = some K) (k : Key)
    (x : Pos F d) (t : Target F D d) (data : Data D) (hx : Frozen (t.val x data)) :
    K k x (t.val x data) t data = ⟨x, t.val x data, false⟩ := by
  cases kr with
  | grw s =>
    simp [KernelRes.local?] at h; subst h
    simp only [grwKernel, grwStep, accept_bad_false _ (frozen_sub _ hx)]; simp
  | mala s =>
    simp [KernelRes.local?] at h; subst h
    simp only [malaKernel, malaStep, malaRatio, accept_bad_false _ (bad_add _ (bad_sub _ (frozen_sub _ hx)))]; simp
  | hmc s n m L =>
    simp [KernelRes.local?] at h; subst h
    simp only [hmcKernel, hmcStep, accept_bad_false _ (bad_sub _ (bad_add _ (frozen_neg hx)))]; simp
  | nf m b => simp [KernelRes.local?] at h

theorem local?_logp (rng : Rng F) (kr : KernelRes F d M) (K : LocalKernel F D d) (h : kr.local? rng = some K) (k : Key)
    (x : Pos F d) (t : Target F D d) (data : Data D) :
    (K k x (t.val x data) t data).logp = t.val (K k x (t.val x data) t data).pos data := by
  have := C14_logp_local rng kr K h Ieee.neg_neg t data 1 (.child k 0) x
  cases kr with
  | grw s =>
    simp [KernelRes.local?] at h; subst h
    simp only [grwKernel, grwStep]; split <;> rfl
  | mala s =>
    simp [KernelRes.local?] at h; subst h
    simp only [malaKernel, malaStep]; split <;> rfl
  | hmc s n m L =>
    simp [KernelRes.local?] at h; subst h
    simp only [hmcKernel, hmcStep]; split
    · exact Ieee.neg_neg _
    · rfl
  | nf m b => simp [KernelRes.local?] at h

/-- C111 (chains). In a serial chain of any length from any start: a recorded row with log-density NaN or `+inf` is repeated, with the flag 0, by every
later row; and if the start has such a log-density, every row is the start. -/
theorem C111_frozen_chain (rng : Rng F) (kr : KernelRes F d M) (K : LocalKernel F D d) (h : kr.local? rng = some K)
    (t : Target F D d) (data : Data D) (n : Nat) (k : Key) (x : Pos F d) :
    (serialSample K t data n k x).Pairwise Repeats ∧
      (Frozen (t.val x data) → ∀ o ∈ serialSample K t data n k x, o = ⟨x, t.val x data, false⟩) := by
  have stay : ∀ n k x, Frozen (t.val x data) → ∀ o ∈ (scanN (localBody K t data) n (k, x, t.val x data)).2, o = ⟨x, t.val x data, false⟩ := by
    intro n
    induction n with
    | zero => intro k x _ o ho; simp [scanN] at ho
    | succ n ih =>
      intro k x hx o ho
      have h1 := C111_frozen_step rng kr K h (split k).2 x t data hx
      simp only [scanN, localBody, List.mem_cons, h1] at ho
      rcases ho with rfl | ho
      · rfl
      · exact ih _ _ hx o ho
  refine ⟨?_, stay n k x⟩
  unfold serialSample
  induction n generalizing k x with
  | zero => simp [scanN]
  | succ n ih =>
    have hlp := local?_logp rng kr K h (split k).2 x t data
    simp only [scanN, localBody, List.pairwise_cons, hlp]
    refine ⟨fun o' ho' hf => ?_, ih _ _⟩
    rw [hlp] at hf
    have := stay _ _ _ hf o' ho'
    rw [this]
    exact ⟨rfl, hlp.symm, rfl⟩

theorem nfScan_frozen (rng : Rng F) (props : List (Pos F d × F × F)) (k : Key) (c : NFCarry F d) (hc : Frozen c.logp ∨ isNaN c.lognf) :
    ∀ o ∈ nfScan rng k c props, o = ⟨c.pos, c.logp, false⟩ := by
  induction props generalizing k with
  | nil => intro o ho; simp [nfScan, scan] at ho
  | cons p ps ih =>
    have hb : Bad ((p.2.1 - c.logp) - (p.2.2 - c.lognf)) := by
      rcases hc with hc | hc
      · exact bad_sub _ (frozen_sub _ hc)
      · exact Or.inl (nan_sub _ _ (Or.inr (nan_sub _ _ (Or.inr hc))))
    have h1 : nfBody (rng.uniform (split k).2) c p = (c, ⟨c.pos, c.logp, false⟩) := by
      simp only [nfBody, accept_bad_false _ hb]; simp
    intro o ho
    simp only [nfScan, scan, List.mem_cons, h1] at ho
    rcases ho with rfl | ho
    · rfl
    · exact ih _ o ho

/-- C111 (flow chains). The same for a call of the flow sampler; moreover nothing is accepted if the flow's log-density at the start is NaN. -/
theorem C111_frozen_flow (env : Env F D d M O) (m : M) (batch : Nat) (t : Target F D d) (data : Data D) (n : Nat) (k : Key)
    (x : Pos F d) (rows : List (StepOut F d)) (hr : groupSample env m batch t data n k x = .ok rows) :
    rows.Pairwise Repeats ∧
      (Frozen (t.val x data) ∨ isNaN (env.ops.logProb m x) → ∀ o ∈ rows, o = ⟨x, t.val x data, false⟩) := by
  simp only [groupSample, nfKernel] at hr
  split at hr
  · simp at hr
  · simp only [Except.ok.injEq] at hr
    subst hr
    refine ⟨?_, fun h => nfScan_frozen _ _ _ _ ?_⟩
    · generalize (⟨x, t.val x data, env.ops.logProb m x⟩ : NFCarry F d) = c
      generalize List.map _ (List.zip _ _) = props
      generalize (split k).1 = k
      induction props generalizing k c with
      | nil => simp [nfScan, scan]
      | cons p ps ih =>
        simp only [nfScan, scan, List.pairwise_cons]
        refine ⟨fun o' ho' hf => ?_, ih _ _⟩
        have := nfScan_frozen _ _ _ _ (Or.inl hf) o' ho'
        rw [this]
        exact ⟨rfl, rfl, rfl⟩
    · exact h

/-! ### whole runs -/

/-- The rows `r` of a chain started at `x`: recorded log-densities are those of the positions, and frozen rows repeat. -/
structure TrapChain (t : Target F D d) (data : Data D) (x : Pos F d) (r : List (StepOut F d)) : Prop where
  start : Frozen (t.val x data) → ∀ o ∈ r, o = ⟨x, t.val x data, false⟩
  later : r.Pairwise Repeats
  logp : ∀ o ∈ r, o.logp = t.val o.pos data

theorem everyNth_pairwise {α : Type} (R : α → α → Prop) (t : Nat) (ht : 0 < t) (l : List α) (h : l.Pairwise R) : (everyNth t l).Pairwise R := by
  rw [List.pairwise_iff_getElem] at h ⊢
  intro i j hi hj hij
  have e1 := everyNth_getElem? t ht l i
  have e2 := everyNth_getElem? t ht l j
  rw [List.getElem?_eq_getElem hi] at e1
  rw [List.getElem?_eq_getElem hj] at e2
  obtain ⟨h1, e1⟩ := List.getElem?_eq_some_iff.1 e1.symm
  obtain ⟨h2, e2⟩ := List.getElem?_eq_some_iff.1 e2.symm
  rw [← e1, ← e2]
  exact h _ _ h1 h2 (Nat.mul_lt_mul_of_pos_right hij ht)

theorem TrapChain.thin {t : Target F D d} {data : Data D} {x : Pos F d} {r : List (StepOut F d)} (h : TrapChain t data x r) (n : Nat) (hn : 0 < n) :
    TrapChain t data x (everyNth n r) :=
  ⟨fun hf o ho => h.start hf o (everyNth_mem n hn r o ho), everyNth_pairwise _ n hn r h.later, fun o ho => h.logp o (everyNth_mem n hn r o ho)⟩

/-- Where a chain started at `x` with recorded rows `r` is left. -/
def endOf (x : Pos F d) (r : List (StepOut F d)) : Pos F d := (r.getLast?.map (·.pos)).getD x

theorem TrapChain.append {t : Target F D d} {data : Data D} {x : Pos F d} {r s : List (StepOut F d)} (h : TrapChain t data x r)
    (h' : TrapChain t data (endOf x r) s) : TrapChain t data x (r ++ s) := by
  refine ⟨fun hf o ho => ?_, List.pairwise_append.2 ⟨h.later, h'.later, fun a ha b hb hf => ?_⟩, fun o ho => ?_⟩
  · rcases List.mem_append.1 ho with ho | ho
    · exact h.start hf o ho
    · have he : endOf x r = x := by
        rcases List.eq_nil_or_concat r with rfl | ⟨r', o', rfl⟩
        · rfl
        · have := h.start hf o' (by simp)
          simp [endOf, this]
      have := h'.start (by rw [he]; exact hf) o ho
      rw [he] at this; exact this
  · rcases List.eq_nil_or_concat r with rfl | ⟨r', o', rfl⟩
    · simp at ha
    · have hl : endOf x (r'.concat o') = o'.pos := by simp [endOf]
      rw [hl] at h'
      have ho' : o'.pos = a.pos ∧ o'.logp = a.logp := by
        have hp := h.later
        rw [List.concat_eq_append, List.pairwise_append] at hp
        rw [List.concat_eq_append, List.mem_append] at ha
        rcases ha with ha | ha
        · have := hp.2.2 a ha o' (by simp) hf; exact ⟨this.1, this.2.1⟩
        · simp at ha; subst ha; exact ⟨rfl, rfl⟩
      have hv : o'.logp = t.val o'.pos data := h.logp o' (by simp)
      have := h'.start (by rw [← hv, ho'.2]; exact hf) b hb
      rw [this]
      exact ⟨ho'.1, by rw [← hv]; exact ho'.2, rfl⟩
  · rcases List.mem_append.1 ho with ho | ho
    · exact h.logp o ho
    · exact h'.logp o ho

theorem endOf_append (x : Pos F d) (r s : List (StepOut F d)) : endOf x (r ++ s) = endOf (endOf x r) s := by
  rcases List.eq_nil_or_concat s with rfl | ⟨s', o, rfl⟩
  · simp [endOf]
  · simp [endOf]

/-- Rows of chain `i`. -/
def rowsOf (log : List (Block F d)) (i : Nat) : List (StepOut F d) := (tagged log i).map (·.2)

theorem rowsOf_snoc (log : List (Block F d)) (b1 b2 : Block F d) (i : Nat) :
    rowsOf (log ++ [b1, b2]) i = rowsOf log i ++ ((b1.rows[i]?).getD [] ++ (b2.rows[i]?).getD []) := by
  simp [rowsOf, tagged, Function.comp_def]

theorem loops_trap (env : Env F D d M O) (hl : env.ops.Lawful) (c : BundleCfg F D d M O) (hc : GoodCfg c) (ht : IgnoresNSteps c.logpdf) (data : Data D)
    (xs ys : List (Pos F d)) (log : List (Block F d)) (h : Loops env c data Eq xs log ys) (i : Nat) (x : Pos F d) (hx : xs[i]? = some x) :
    TrapChain c.logpdf data x (rowsOf log i) ∧ ys[i]? = some (endOf x (rowsOf log i)) := by
  induction h with
  | nil => exact ⟨⟨fun _ o ho => by simp [rowsOf, tagged] at ho, by simp [rowsOf, tagged], fun o ho => by simp [rowsOf, tagged] at ho⟩,
      by simpa [rowsOf, tagged, endOf] using hx⟩
  | @snoc log ys ys' b1 zs b2 ws m k k' rest hgap h1 h2 ih =>
    obtain ⟨hT, hy⟩ := ih
    subst hgap
    obtain ⟨-, l1, n1, r1⟩ := h1
    obtain ⟨-, l2, n2, r2⟩ := h2
    have e1 := r1 i _ hy
    have t1 : TrapChain c.logpdf data (endOf x (rowsOf log i)) ((b1.rows[i]?).getD []) := by
      rw [e1]
      have hk : (KernelRes.mala c.stepSize : KernelRes F d M).local? (D := D) env.rng =
        some (fun k x lp t data => malaKernel env.rng c.stepSize k x lp t data) := rfl
      have := C111_frozen_chain env.rng _ _ hk c.logpdf data c.nLocal (.child (.child k 1) i) (endOf x (rowsOf log i))
      exact (TrapChain.mk this.2 this.1 (fun o ho => C14_logp_local env.rng _ _ hk Ieee.neg_neg c.logpdf data _ _ _ o ho)).thin _ hc.localThin
    have z1 : zs[i]? = some (endOf (endOf x (rowsOf log i)) ((b1.rows[i]?).getD [])) := by
      have hlen : i < zs.length := by
        rw [l1.1, n1]; exact (List.getElem?_eq_some_iff.1 hy).1
      have := l1.2 i
      rw [List.getElem?_eq_getElem hlen] at this ⊢
      rw [e1] at this ⊢
      simp only [Option.bind_some] at this
      simp only [Option.getD_some]; unfold endOf; unfold endOf at this; rw [← this]; rfl
    obtain ⟨r, g1, e2⟩ := r2 i _ z1
    have t2 : TrapChain c.logpdf data (endOf (endOf x (rowsOf log i)) ((b1.rows[i]?).getD [])) ((b2.rows[i]?).getD []) := by
      rw [e2]
      have := C111_frozen_flow env m c.nfBatch c.logpdf data c.nGlobal _ _ r g1
      obtain ⟨r', g2, -, g3⟩ := C15_logp_nf env hl m c.nfBatch hc.nfBatch c.logpdf ht data c.nGlobal (.child (.child k' 1) i)
        (endOf (endOf x (rowsOf log i)) ((b1.rows[i]?).getD []))
      rw [g1] at g2
      simp only [Except.ok.injEq] at g2
      subst g2
      exact (TrapChain.mk (fun hf => this.2 (Or.inl hf)) this.1 g3).thin _ hc.globalThin
    have w1 : ws[i]? = some (endOf (endOf (endOf x (rowsOf log i)) ((b1.rows[i]?).getD [])) ((b2.rows[i]?).getD [])) := by
      have hlen : i < ws.length := by
        rw [l2.1, n2]; exact (List.getElem?_eq_some_iff.1 z1).1
      have := l2.2 i
      rw [List.getElem?_eq_getElem hlen] at this ⊢
      rw [e2] at this ⊢
      simp only [Option.bind_some] at this
      simp only [Option.getD_some]; unfold endOf; rw [← this]; rfl
    rw [rowsOf_snoc, endOf_append, endOf_append]
    exact ⟨hT.append (t1.append t2), w1⟩

theorem history_eq [BufNum F] {h : Heap F D d M O} {n T T' : Nat} {P L P' L' : String} {acc acc' : Bool → String} {log log' : List (Block F d)}
    (r : Recording h n T P L acc log) (r' : Recording h n T' P' L' acc' log') (f : ∀ i < n, (tagged log i).length = T)
    (f' : ∀ i < n, (tagged log' i).length = T') :
    ∃ bT lT bP lP, h.res P = some (.buffer bT) ∧ h.res L = some (.buffer lT) ∧ h.res P' = some (.buffer bP) ∧ h.res L' = some (.buffer lP) ∧
      ∀ i j, i < n → j < T + T' → ∃ o, (rowsOf log i ++ rowsOf log' i)[j]? = some o ∧
        historyPos T bT.data bP.data i j = o.pos ∧ historyLogp T lT.data lP.data i j = o.logp := by
  obtain ⟨bT, e1, -, -, g1⟩ := r.pos
  obtain ⟨lT, e2, -, -, g2⟩ := r.logp
  obtain ⟨bP, e3, -, -, g3⟩ := r'.pos
  obtain ⟨lP, e4, -, -, g4⟩ := r'.logp
  refine ⟨bT, lT, bP, lP, e1, e2, e3, e4, fun i j hi hj => ?_⟩
  have hlen : (rowsOf log i).length = T := by simp [rowsOf, f i hi]
  by_cases hjT : j < T
  · have hj' : j < (tagged log i).length := by rw [f i hi]; exact hjT
    refine ⟨((tagged log i)[j]).2, ?_, ?_, ?_⟩
    · rw [List.getElem?_append_left (by rw [hlen]; exact hjT)]
      simp [rowsOf, List.getElem?_eq_getElem hj']
    · funext c
      simp only [historyPos, if_pos hjT, g1 i j c hi hjT, List.getElem?_eq_getElem hj']
    · simp only [historyLogp, if_pos hjT, g2 i j hi hjT, List.getElem?_eq_getElem hj']
  · have hjP : j - T < T' := by omega
    have hj' : j - T < (tagged log' i).length := by rw [f' i hi]; exact hjP
    refine ⟨((tagged log' i)[j - T]).2, ?_, ?_, ?_⟩
    · rw [List.getElem?_append_right (by rw [hlen]; omega), hlen]
      simp [rowsOf, List.getElem?_eq_getElem hj']
    · funext c
      simp only [historyPos, if_neg hjT, g3 i _ c hi hjP, List.getElem?_eq_getElem hj']
    · simp only [historyLogp, if_neg hjT, g4 i _ hi hjP, List.getElem?_eq_getElem hj']

/-- C111 (whole runs). A complete run of the MALA bundle, any number of loops, chains, steps, thinnings: read each chain's recorded history, training
then production, from the buffers. If the log-probability recorded at some step is NaN or `+inf`, position and log-probability are the same at every later
step, to the end of production; and a chain whose initial position has such a log-density has that position recorded at every step. -/
theorem C111_run [BufNum F] (env : Env F D d M O) (hl : env.ops.Lawful) (c : BundleCfg F D d M O) (hc : GoodCfg c) (ht : IgnoresNSteps c.logpdf)
    (data : Data D) (n nc : Nat) (key : Key) (kw : List (String × V)) (s s' : Sampler F D d M O V)
    (hs : Sampler.new n nc key none none none (some (malaBundle c)) kw = .ok s)
    (init : InitPos F d) (hx : init.atleast2d.length = c.nChains) (hrun : s.sample env init data = (.ok (), s')) :
    ∃ bT lT bP lP, s'.heap.res "positions_training" = some (.buffer bT) ∧ s'.heap.res "log_prob_training" = some (.buffer lT) ∧
      s'.heap.res "positions_production" = some (.buffer bP) ∧ s'.heap.res "log_prob_production" = some (.buffer lP) ∧
      (∀ i j j', i < c.nChains → j ≤ j' → j' < c.nTrainSteps + c.nProdSteps → Frozen (historyLogp c.nTrainSteps lT.data lP.data i j) →
        (historyPos c.nTrainSteps bT.data bP.data i j' : Pos F d) = historyPos c.nTrainSteps bT.data bP.data i j ∧
        historyLogp c.nTrainSteps lT.data lP.data i j' = historyLogp c.nTrainSteps lT.data lP.data i j) ∧
      ∀ i x j, init.atleast2d[i]? = some x → Frozen (c.logpdf.val x data) → j < c.nTrainSteps + c.nProdSteps →
        historyPos c.nTrainSteps bT.data bP.data i j = x ∧ historyLogp c.nTrainSteps lT.data lP.data i j = c.logpdf.val x data := by
  obtain ⟨logT, logP, xsT, xsP, A⟩ := C57_accounting env hl c hc data n nc key kw s s' hs init hx hrun
  obtain ⟨bT, lT, bP, lP, e1, e2, e3, e4, g⟩ := history_eq A.train A.prod A.trainFull A.prodFull
  have trap : ∀ i x, init.atleast2d[i]? = some x → TrapChain c.logpdf data x (rowsOf logT i ++ rowsOf logP i) := by
    intro i x hix
    obtain ⟨h1, h2⟩ := loops_trap env hl c hc ht data _ _ _ A.trainLoops i x hix
    obtain ⟨h3, -⟩ := loops_trap env hl c hc ht data _ _ _ A.prodLoops i _ h2
    exact h1.append h3
  refine ⟨bT, lT, bP, lP, e1, e2, e3, e4, ?_, ?_⟩
  · intro i j j' hi hjj hj' hf
    rcases Nat.eq_or_lt_of_le hjj with rfl | hlt
    · exact ⟨rfl, rfl⟩
    · obtain ⟨o, q1, q2, q3⟩ := g i j hi (by omega)
      obtain ⟨o', q1', q2', q3'⟩ := g i j' hi hj'
      obtain ⟨l1, q1⟩ := List.getElem?_eq_some_iff.1 q1
      obtain ⟨l2, q1'⟩ := List.getElem?_eq_some_iff.1 q1'
      have := List.pairwise_iff_getElem.1 (trap i _ (List.getElem?_eq_getElem (by rw [hx]; exact hi))).later j j' l1 l2 hlt
      rw [q1, q1'] at this
      rw [q3] at hf
      rw [q2, q2', q3, q3']
      exact ⟨(this hf).1, (this hf).2.1⟩
  · intro i x j hix hf hj
    have hi : i < c.nChains := by rw [← hx]; exact (List.getElem?_eq_some_iff.1 hix).1
    obtain ⟨o, q1, q2, q3⟩ := g i j hi hj
    have := (trap i x hix).start hf o (List.mem_of_getElem? q1)
    rw [q2, q3, this]
    exact ⟨rfl, rfl⟩

/-! ### NaN gradients -/

variable [IeeeMul F]

theorem nan_sumFin {n : Nat} (f : Fin n → F) (i : Fin n) (h : isNaN (f i)) : isNaN (sumFin f) := by
  induction n with
  | zero => exact i.elim0
  | succ n ih =>
    simp only [sumFin]
    refine Fin.cases (motive := fun i => isNaN (f i) → isNaN (f 0 + sumFin fun i => f i.succ)) (fun h => nan_add _ _ (Or.inl h))
      (fun i h => nan_add _ _ (Or.inr (ih _ i h))) i h

theorem nan_isoNorm (x m : Pos F d) (c : F) (i : Fin d) (h : isNaN (m i)) : isNaN (isoNormLogpdf x m c) := by
  refine nan_sub _ _ (Or.inl (IeeeMul.nan_div _ _ (Or.inl (IeeeMul.nan_mul _ _ (Or.inr (nan_sumFin _ i ?_))))))
  exact IeeeMul.nan_mul _ _ (Or.inl (nan_sub _ _ (Or.inr h)))

theorem nan_malaMean (dt : F) (x g : Pos F d) (i : Fin d) (h : isNaN (g i)) : isNaN (malaMean dt x g i) :=
  nan_add _ _ (Or.inr (IeeeMul.nan_div _ _ (Or.inl (IeeeMul.nan_mul _ _ (Or.inr h)))))

/-- C111 (NaN gradient, MALA). A MALA chain of any length started where some component of the gradient is NaN — even if the log-density is an ordinary
number there — never moves: every row is the start, flag 0. -/
theorem C111_gradient_chain (rng : Rng F) (dt : F) (t : Target F D d) (data : Data D) (n : Nat) (k : Key) (x : Pos F d) (i : Fin d)
    (hg : isNaN (t.grad x data i)) :
    ∀ o ∈ serialSample (fun k x lp t data => malaKernel rng dt k x lp t data) t data n k x, o = ⟨x, t.val x data, false⟩ := by
  have step : ∀ k lp, malaKernel rng dt k x lp t data = ⟨x, t.val x data, false⟩ := by
    intro k lp
    have hb : ∀ y gy lpy, Bad (malaRatio dt x y (t.grad x data) gy (t.val x data) lpy) := fun y gy lpy =>
      Or.inl (nan_add _ _ (Or.inl (nan_sub _ _ (Or.inr (nan_isoNorm _ _ _ i (nan_malaMean _ _ _ i hg))))))
    simp only [malaKernel, malaStep, accept_bad_false _ (hb _ _ _)]; simp
  have main : ∀ n k lp, ∀ o ∈ (scanN (localBody (fun k x lp t data => malaKernel rng dt k x lp t data) t data) n (k, x, lp)).2,
      o = ⟨x, t.val x data, false⟩ := by
    intro n
    induction n with
    | zero => intro k lp o ho; simp [scanN] at ho
    | succ n ih =>
      intro k lp o ho
      simp only [scanN, localBody, step, List.mem_cons] at ho
      rcases ho with rfl | ho
      · rfl
      · exact ih _ _ o ho
  exact main n k _

/-- C111 (NaN gradient, never entered). If MALA or HMC reports an acceptance, no component of the gradient at the new position is NaN. -/
theorem C111_gradient_entered (rng : Rng F) (kr : KernelRes F d M) (K : LocalKernel F D d) (h : kr.local? rng = some K)
    (hk : ∀ s, kr ≠ .grw s) (k : Key) (x : Pos F d) (lp : F) (t : Target F D d) (data : Data D) (hacc : (K k x lp t data).acc = true) (i : Fin d) :
    ¬ isNaN (t.grad (K k x lp t data).pos data i) := by
  intro hg
  cases kr with
  | grw s => exact hk s rfl
  | mala s =>
    simp [KernelRes.local?] at h; subst h
    simp only [malaKernel, malaStep] at hacc hg
    simp only [hacc, if_true] at hg
    rw [accept_bad_false] at hacc
    · exact Bool.noConfusion hacc
    exact Or.inl (nan_add _ _ (Or.inr (nan_isoNorm _ _ _ i (nan_malaMean _ _ _ i hg))))
  | hmc s n m L =>
    simp [KernelRes.local?] at h; subst h
    simp only [hmcKernel, hmcStep] at hacc hg
    simp only [hacc, if_true] at hg
    rw [accept_bad_false] at hacc
    · exact Bool.noConfusion hacc
    refine Or.inl (nan_sub _ _ (Or.inr (nan_add _ _ (Or.inr (IeeeMul.nan_mul _ _ (Or.inr (nan_sumFin _ i (nan_sumFin _ i ?_))))))))
    refine IeeeMul.nan_mul _ _ (Or.inl (IeeeMul.nan_mul _ _ (Or.inl ?_)))
    simp only [leapfrogStep] at hg ⊢
    rw [List.range_succ, List.foldl_append] at hg ⊢
    simp only [List.foldl_cons, List.foldl_nil, leapfrogBody] at hg ⊢
    exact nan_sub _ _ (Or.inr (IeeeMul.nan_mul _ _ (Or.inr (nan_neg _ hg))))
  | nf m b => simp [KernelRes.local?] at h

/-! ### parallel tempering -/

theorem individualStep_frozen (rng : Rng F) (kr : KernelRes F d M) (K : LocalKernel F D d) (h : kr.local? rng = some K) (l : TemperedPDF F D d)
    (data : Data D) (n : Nat) (k : Key) (x : Pos F d) (T : F) (hx : isNaN (l.call x data)) : individualStep K l data n k x T = x := by
  have hf : Frozen ((l.tempered T).val x data) := Or.inl (nan_add _ _ (Or.inl (IeeeMul.nan_mul _ _ (Or.inr hx))))
  simp only [individualStep]
  induction n generalizing k with
  | zero => rfl
  | succ n ih =>
    have h1 := C111_frozen_step rng kr K h (split k).2 x (l.tempered T) data hf
    simp only [scanN, localBody, h1]
    exact ih _

theorem zip_map_get {α β γ : Type} (a : List α) (b : List β) (f : α × β → γ) (i : Nat) (y : β) (hb : b[i]? = some y) (hl : b.length ≤ a.length) :
    ∃ u, ((a.zip b).map f)[i]? = some (f (u, y)) := by
  have hi : i < a.length := lt_of_lt_of_le (List.getElem?_eq_some_iff.1 hb).1 hl
  refine ⟨a[i], ?_⟩
  rw [List.getElem?_map, (List.getElem?_zip_eq_some (z := (a[i], y))).2 ⟨List.getElem?_eq_getElem hi, hb⟩]
  rfl

theorem ensembleStep_frozen (rng : Rng F) (kr : KernelRes F d M) (K : LocalKernel F D d) (h : kr.local? rng = some K) (l : TemperedPDF F D d)
    (data : Data D) (n : Nat) (k : Key) (xs : List (Pos F d)) (Ts : List F) (hT : Ts.length = xs.length) (j : Nat) (x : Pos F d) (hj : xs[j]? = some x)
    (hx : isNaN (l.call x data)) : (ensembleStep K l data n k xs Ts)[j]? = some x := by
  have hlt := (List.getElem?_eq_some_iff.1 hj).1
  have ht : Ts[j]? = some (Ts[j]'(by rw [hT]; exact hlt)) := List.getElem?_eq_getElem _
  have hz : (xs.zip Ts)[j]? = some (x, Ts[j]'(by rw [hT]; exact hlt)) := (List.getElem?_zip_eq_some).2 ⟨hj, ht⟩
  obtain ⟨u, hu⟩ := zip_map_get (splitN k xs.length) (xs.zip Ts) (fun a => individualStep K l data n a.1 a.2.1 a.2.2) j _ hz (by simp [splitN_length])
  rw [ensembleStep, hu, individualStep_frozen rng kr K h l data n _ x _ hx]

theorem swapAt_other {α : Type} (i j : Nat) (xs : List α) (h1 : i ≠ j) (h2 : i + 1 ≠ j) : (swapAt i xs)[j]? = xs[j]? := by
  unfold swapAt
  split
  · rw [List.getElem?_set_ne h2, List.getElem?_set_ne h1]
  · rfl

theorem exchScan_frozen (rng : Rng F) (Ts : List F) (n i : Nat) (k : Key) (c : ExchCarry F d) (j : Nat) (v : F) (hv : c.logps[j]? = some v) (hn : isNaN v) :
    (exchScan rng Ts n i k c).1.positions[j]? = c.positions[j]? := by
  induction n generalizing i k c with
  | zero => rfl
  | succ n ih =>
    have hb : (exchBody Ts (rng.uniform (split k).2) i c).1.positions[j]? = c.positions[j]? ∧ (exchBody Ts (rng.uniform (split k).2) i c).1.logps[j]? = some v := by
      by_cases hij : i = j ∨ i + 1 = j
      · have hbad : Bad (exchRatio Ts c.logps i) := by
          refine Or.inl (IeeeMul.nan_mul _ _ (Or.inr (nan_sub _ _ ?_)))
          rcases hij with rfl | rfl
          · left; rw [List.getD_eq_getElem?_getD, hv]; exact hn
          · right; rw [List.getD_eq_getElem?_getD, hv]; exact hn
        simp only [exchBody, accept_bad_false _ hbad]
        exact ⟨rfl, hv⟩
      · rw [not_or] at hij
        simp only [exchBody]
        split
        · exact ⟨swapAt_other _ _ _ hij.1 hij.2, by rw [swapAt_other _ _ _ hij.1 hij.2]; exact hv⟩
        · exact ⟨rfl, hv⟩
    simp only [exchScan]
    rw [ih _ _ _ hb.2, hb.1]

/-- C111 (tempering, replicas). A replica whose untempered log-density is NaN keeps its position and its temperature through the exchange round. -/
theorem C111_exchange (rng : Rng F) (l : TemperedPDF F D d) (data : Data D) (Ts : List F) (k : Key) (xs : List (Pos F d)) (j : Nat) (x : Pos F d)
    (hj : xs[j]? = some x) (hx : isNaN (l.call x data)) : (exchange rng l data Ts k xs).1.positions[j]? = some x := by
  rw [← hj]
  exact exchScan_frozen rng Ts _ 0 k _ j (l.call x data) (by simp [hj]) hx

theorem filterMap_head_get {α : Type} (ls : List (List α)) (h : ∀ l ∈ ls, l ≠ []) (i : Nat) : (ls.filterMap (·.head?))[i]? = (ls[i]?).bind (·[0]?) := by
  induction ls generalizing i with
  | nil => simp
  | cons l ls ih =>
    cases l with
    | nil => exact absurd rfl (h [] List.mem_cons_self)
    | cons a l =>
      have := ih (fun l hl => h l (List.mem_cons_of_mem _ hl))
      cases i <;> simp [this]

/-- C111 (tempering call). Whatever the temperatures, replicas, local kernel and prior: a chain that enters a successful `ParallelTempering` call at a point whose
log-density is NaN leaves it at the same point. -/
theorem C111_tempering [BufNum F] (env : Env F D d M O) (s : ParallelTempering) (k k' : Key) (xs ys : List (Pos F d)) (data : Data D) (h h' : Heap F D d M O)
    (hr : s.run env k xs data h = (.ok (k', ys), h')) (l : TemperedPDF F D d) (hl : h.res s.temperedLogpdfName = some (.tempered l))
    (i : Nat) (x : Pos F d) (hi : xs[i]? = some x) (hx : isNaN (l.call x data)) : ys[i]? = some x := by
  have hp : ∀ p, s.plan env k xs data h = .ok p → (coldRow p.positions)[i]? = some x := by
    intro p hp
    have hgl : h.getTempered s.temperedLogpdfName = .ok l := by simp [Heap.getTempered, Heap.get, hl]
    simp only [ParallelTempering.plan, bind, Except.bind, hgl] at hp
    repeat' split at hp <;> try (cases hp; done)
    simp only [Except.ok.injEq] at hp
    subst hp
    rename_i pb _ _ _ _ _ _ _ _ _ _ _ _ _ K nC nRep dd nT hK hs1 hs2 hc _ _ _
    obtain ⟨-, -, hT⟩ := hc
    simp only [coldRow]
    generalize hTs : (List.range nT).map _ = Ts
    have hTl : Ts.length = nRep + 1 := by rw [← hTs]; simp [hT]
    have hreps : ∃ r, r.length = nRep ∧ (withReplicas xs pb.data nRep)[i]? = some (x :: r) :=
      ⟨(List.range nRep).map (fun j => row3 pb.data i j), by simp, by simp [withReplicas, List.getElem?_zipIdx, hi]⟩
    obtain ⟨r, hrl, hreps⟩ := hreps
    obtain ⟨u1, hu1⟩ := zip_map_get (splitN (split (split k).1).2 xs.length) (withReplicas xs pb.data nRep)
      (fun a => ensembleStep K l data s.nSteps a.1 a.2 Ts) i _ hreps (by simp [splitN_length, withReplicas])
    have hcold := ensembleStep_frozen env.rng _ K hK l data s.nSteps u1 (x :: r) Ts (by simp [hTl, hrl]) 0 x rfl hx
    obtain ⟨u2, hu2⟩ := zip_map_get (splitN (split (split (split k).1).1).2 xs.length) _
      (fun a => exchange env.rng l data Ts a.1 a.2) i _ hu1 (by simp [splitN_length, withReplicas])
    have hex := C111_exchange env.rng l data Ts u2 _ 0 x hcold hx
    rw [filterMap_head_get]
    · rw [List.getElem?_map, hu2]
      exact hex
    · intro q hq
      simp only [List.mem_map, Prod.exists] at hq
      obtain ⟨e1, e2, ⟨kk, m, hm, he⟩, rfl⟩ := hq
      have hm2 := (List.of_mem_zip hm).2
      simp only [List.mem_map, Prod.exists] at hm2
      obtain ⟨k2, r, hr2, rfl⟩ := hm2
      have hr3 := (List.of_mem_zip hr2).2
      simp only [withReplicas, List.mem_map, Prod.exists] at hr3
      obtain ⟨x', i', -, rfl⟩ := hr3
      have hlen : e1.positions.length ≠ 0 := by
        have := congrArg (fun e => e.1.positions.length) he
        simp only at this
        rw [← this, (C30_exchange_permutes env.rng _ data _ _ _).1.length_eq, ensembleStep_length]
        · simp
        · simp [hTl]
      exact fun h0 => hlen (by rw [h0]; rfl)
  unfold ParallelTempering.run at hr
  split at hr
  · simp at hr
  · rename_i p e
    have := hp p e
    split at hr
    · split at hr <;> [(simp at hr; done); skip]
      split at hr <;> [(simp at hr; done); skip]
      simp only [Prod.mk.injEq, Except.ok.injEq] at hr
      rw [← hr.1.2]; exact this
    · simp only [Prod.mk.injEq, Except.ok.injEq] at hr
      rw [← hr.1.2]; exact this

end generic

/-! ### leaving `-inf`, entering `+inf` -/

section escape
variable {F D : Type} {d : Nat} {M O V : Type}
variable [Zero F] [One F] [Add F] [Mul F] [Div F] [Sub F] [Neg F] [NatCast F] [Transc F] [FCmp F] [Ieee F] [IeeeFin F]
open IeeeFin

theorem accept_posInf (u : F) (hu : isFin (Transc.log u) ∨ Transc.log u = negInf) : acceptTest u (posInf : F) = true := fin_lt _ hu

/-- C111 (leaving `-inf`, random walk). Carried log-density `-inf`, proposed log-density finite: the proposal is accepted, for every uniform draw whose logarithm is
finite or `-inf`. -/
theorem C111_escape_grw (step : F) (t : Target F D d) (data : Data D) (ξ : Pos F d) (u : F) (x : Pos F d) (hx : t.val x data = negInf)
    (hy : isFin (t.val (grwProposal step x ξ) data)) (hu : isFin (Transc.log u) ∨ Transc.log u = negInf) :
    grwStep step t data ξ u x (t.val x data) = ⟨grwProposal step x ξ, t.val (grwProposal step x ξ) data, true⟩ := by
  simp only [grwStep, hx, fin_sub_negInf _ hy, accept_posInf u hu]; simp

/-- C111 (leaving `-inf`, MALA), provided the two Gaussian terms of the ratio are finite. -/
theorem C111_escape_mala (dt : F) (t : Target F D d) (data : Data D) (ξ : Pos F d) (u : F) (x : Pos F d) (lp : F) (hx : t.val x data = negInf)
    (hy : isFin (t.val (malaProposal dt x (t.grad x data) ξ) data)) (hu : isFin (Transc.log u) ∨ Transc.log u = negInf)
    (h1 : isFin (isoNormLogpdf (malaProposal dt x (t.grad x data) ξ) (malaMean dt x (t.grad x data)) (dt * dt)))
    (h2 : isFin (isoNormLogpdf x (malaMean dt (malaProposal dt x (t.grad x data) ξ) (t.grad (malaProposal dt x (t.grad x data) ξ) data)) (dt * dt))) :
    malaStep dt t data ξ u x lp = ⟨malaProposal dt x (t.grad x data) ξ, t.val (malaProposal dt x (t.grad x data) ξ) data, true⟩ := by
  simp only [malaStep, malaRatio, hx, fin_sub_negInf _ hy, posInf_sub_fin _ h1, posInf_add_fin _ h2, accept_posInf u hu]; simp

/-- C111 (leaving `-inf`, HMC), provided the two kinetic energies and the proposed total energy are finite. -/
theorem C111_escape_hmc (ε : F) (nLeap : Nat) (metric L : Mat F d) (t : Target F D d) (data : Data D) (z : Pos F d) (u : F) (x : Pos F d)
    (hx : t.val x data = negInf) (hu : isFin (Transc.log u) ∨ Transc.log u = negInf) (hk : isFin (hmcKinetic metric (hmcMomentum L z)))
    (hH : isFin (-(t.val (leapfrogStep ε nLeap metric (fun y => fun i => -(t.grad y data i)) (x, hmcMomentum L z)).1 data) +
      hmcKinetic metric (leapfrogStep ε nLeap metric (fun y => fun i => -(t.grad y data i)) (x, hmcMomentum L z)).2)) :
    hmcStep ε nLeap metric L t data z u x (t.val x data) =
      ⟨(leapfrogStep ε nLeap metric (fun y => fun i => -(t.grad y data i)) (x, hmcMomentum L z)).1,
        t.val (leapfrogStep ε nLeap metric (fun y => fun i => -(t.grad y data i)) (x, hmcMomentum L z)).1 data, true⟩ := by
  simp only [hmcStep, hx, neg_negInf, posInf_add_fin _ hk, posInf_sub_fin _ hH, accept_posInf u hu, Ieee.neg_neg]; simp

/-- C111 (leaving `-inf`, flow), provided the difference of the flow's log-densities at the proposal and at the current point is finite. -/
theorem C111_escape_flow (u : F) (c : NFCarry F d) (p : Pos F d × F × F) (hx : c.logp = negInf) (hy : isFin p.2.1)
    (hu : isFin (Transc.log u) ∨ Transc.log u = negInf) (hd : isFin (p.2.2 - c.lognf)) :
    (nfBody u c p).2 = ⟨p.1, p.2.1, true⟩ := by
  simp only [nfBody, hx, fin_sub_negInf _ hy, posInf_sub_fin _ hd, accept_posInf u hu]; simp

/-- C111 (entering `+inf`). From any point with finite log-density a random-walk proposal whose log-density evaluates to `+inf` is always accepted — after
which the chain never moves again (`C111_frozen_chain`). -/
theorem C111_enter_posInf (step : F) (t : Target F D d) (data : Data D) (ξ : Pos F d) (u : F) (x : Pos F d) (lp : F) (hlp : isFin lp)
    (hy : t.val (grwProposal step x ξ) data = posInf) (hu : isFin (Transc.log u) ∨ Transc.log u = negInf) :
    grwStep step t data ξ u x lp = ⟨grwProposal step x ξ, posInf, true⟩ := by
  simp only [grwStep, hy, posInf_sub_fin _ hlp, accept_posInf u hu]; simp

end escape

/-! ### exact arithmetic: only the log-density and its gradient matter -/
section exact
variable {D : Type} {d : Nat}

theorem log_unit (u : ℝ) (hu : 0 ≤ u) : IeeeFin.isFin (Transc.log (XR.fin u)) ∨ Transc.log (XR.fin u) = Ieee.negInf := by
  change (∃ x, (if u < 0 then XR.nan else if u = 0 then XR.ninf else .fin (Real.log u)) = .fin x) ∨
    (if u < 0 then XR.nan else if u = 0 then XR.ninf else .fin (Real.log u)) = .ninf
  rw [if_neg (not_lt.2 hu)]
  by_cases h : u = 0
  · right; rw [if_pos h]
  · left; exact ⟨_, if_neg h⟩

/-- C111 (leaving `-inf`, MALA on extended reals). Log-density `-inf` at `x`, finite gradient there: the first proposal with finite log-density and finite gradient
is accepted, for every draw, uniform `u ≥ 0` and step size other than 0. -/
theorem C111_escape_mala_exact (dt : ℝ) (hdt : dt ≠ 0) (t : Target XR D d) (data : Data D) (ξ x g0 g1 : Fin d → ℝ) (u v : ℝ) (lp : XR) (hu : 0 ≤ u)
    (hx : t.val (emb x) data = .ninf) (hg0 : t.grad (emb x) data = emb g0) (hy : t.val (emb (malaProposal dt x g0 ξ)) data = .fin v)
    (hg1 : t.grad (emb (malaProposal dt x g0 ξ)) data = emb g1) :
    malaStep (.fin dt) t data (emb ξ) (.fin u) (emb x) lp = ⟨emb (malaProposal dt x g0 ξ), .fin v, true⟩ := by
  have e := malaProposal_fin dt x g0 ξ
  have hc : 0 < dt * dt := mul_self_pos.2 hdt
  have hcc : (XR.fin dt * XR.fin dt : XR) = .fin (dt * dt) := rfl
  have := C111_escape_mala (.fin dt) t data (emb ξ) (.fin u) (emb x) lp hx (by rw [hg0, e, hy]; exact ⟨v, rfl⟩) (log_unit u hu)
    (by rw [hg0, e, malaMean_fin, hcc, isoNorm_fin _ _ _ hc]; exact ⟨_, rfl⟩)
    (by rw [hg0, e, hg1, malaMean_fin, hcc, isoNorm_fin _ _ _ hc]; exact ⟨_, rfl⟩)
  rw [this, hg0, e, hy]

/-- C111 (leaving `-inf`, HMC on extended reals), for a log-density with finite gradients. -/
theorem C111_escape_hmc_exact (ε : ℝ) (n : Nat) (A L : Mat ℝ d) (t : Target XR D d) (data : Data D) (gU : (Fin d → ℝ) → Fin d → ℝ)
    (hg : ∀ y, (fun i => -(t.grad (emb y) data i)) = emb (gU y)) (z x : Fin d → ℝ) (u v : ℝ) (hu : 0 ≤ u) (hx : t.val (emb x) data = .ninf)
    (hy : t.val (emb (leapfrogStep ε n A gU (x, hmcMomentum L z)).1) data = .fin v) :
    hmcStep (.fin ε) n (embMat A) (embMat L) t data (emb z) (.fin u) (emb x) .ninf =
      ⟨emb (leapfrogStep ε n A gU (x, hmcMomentum L z)).1, .fin v, true⟩ := by
  have e := leapfrogStep_fin ε n A (fun y => fun i => -(t.grad y data i)) gU hg x (hmcMomentum L z)
  have := C111_escape_hmc (.fin ε) n (embMat A) (embMat L) t data (emb z) (.fin u) (emb x) hx (log_unit u hu)
    (by rw [hmcMomentum_fin, hmcKinetic_fin]; exact ⟨_, rfl⟩)
    (by rw [hmcMomentum_fin, e, hy, hmcKinetic_fin]; exact ⟨_, rfl⟩)
  rw [hx, hmcMomentum_fin, e, hy] at this
  exact this

end exact
end FlowMC
