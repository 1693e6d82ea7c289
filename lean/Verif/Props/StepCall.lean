import Verif.Props.Steps
import Verif.Lemmas.Toy
/-
C13–C19 at the level of a call of a step strategy: what ends up in the buffers.
-/
set_option linter.unusedSectionVars false
namespace FlowMC
open Spec

variable {F D : Type} {d : Nat} {M O : Type}
variable [Zero F] [One F] [Add F] [Mul F] [Div F] [Sub F] [Neg F] [NatCast F] [Transc F] [FCmp F] [BufNum F]

/-! ### C19 -/

/-- C19 (success). Pointed at three buffers with room for the block, and given a per-chain sampler `f` that succeeds with
`rows`, a step call succeeds, returns a fresh key and one position per chain, records exactly the thinned rows at its cursor
and changes nothing else. -/
theorem C19_success (env : Env F D d M O) (s : TakeSteps) (k : Key) (xs : List (Pos F d)) (data : Data D)
    (h : Heap F D d M O) (T : Nat) (P L A : String) (bP bL bA : Buffer F) (hpt : PointsAt h s P L A)
    (hr : Recorders h xs.length T P L A bP bL bA) (hfit : h.pos s.ident + ceilDiv' s.nSteps s.thinning ≤ T)
    (kr lr : Resource F D d M O) (hk : h.res s.kernelName = some kr) (hl : h.res s.logpdfName = some lr)
    (f : Key → Pos F d → Except Err (List (StepOut F d))) (hf : s.sampler env kr lr data = .ok f)
    (rows : List (List (StepOut F d)))
    (hrows : List.Forall₂ (fun a r => f a.1 a.2 = .ok r) ((splitN (Key.child k 1) xs.length).zip xs) rows)
    (hlen : ∀ r ∈ rows, r.length = s.nSteps) (ht : 0 < s.thinning) (hn : 0 < s.nSteps) :
    ∃ ys h', s.run env k xs data h = (.ok (Key.child k 0, ys), h') ∧
      StepEffect s h h' xs.length T P L A bP bL bA (rows.map (everyNth s.thinning)) ∧
      ys.length = xs.length ∧
      ∀ i : Nat, ys[i]? = (rows[i]?).bind (fun r => (r[(ceilDiv' s.nSteps s.thinning - 1) * s.thinning]?).map (·.pos)) := by
  have hp := plan_eq env s k xs data h P L A bP bL bA hpt hr.resP hr.resL hr.resA kr lr hk hl f hf
  rw [(mapE_ok_iff _ _ _).2 hrows] at hp
  have ht' : s.thinning ≠ 0 := by omega
  simp only [ht', if_false] at hp
  obtain ⟨h', hc, he⟩ := commit_effect s xs.length T {
    posName := P, lpName := L, accName := A, outKey := Key.child k 0, rows := rows.map (everyNth s.thinning) } h bP bL bA
    hr hfit
  obtain ⟨ys, l1, l2, l3⟩ := C17_returned_row s.thinning s.nSteps ht hn rows hlen
  refine ⟨ys, h', ?_, he, ?_, l3⟩
  · unfold TakeSteps.run
    rw [hp]
    simp only [hc, l1, Except.map]
  · rw [l2, ← hrows.length_eq]; simp [splitN_length]

/-- C19 (frame). Whatever the outcome of a step call — success or exception — every resource other than the three buffers named
through the state, and every other strategy's cursor, is untouched. -/
theorem C19_frame (env : Env F D d M O) (s : TakeSteps) (k : Key) (xs : List (Pos F d)) (data : Data D)
    (h : Heap F D d M O) :
    (∀ id, id ≠ s.ident → (s.run env k xs data h).2.pos id = h.pos id) ∧
    ((s.run env k xs data h).2 = h ∨
      ∃ st p l a P L A, h.res s.stateName = some (.state st) ∧
        (s.bufferNames[0]? = some p ∧ s.bufferNames[1]? = some l ∧ s.bufferNames[2]? = some a) ∧
        (st.data p = some (.str P) ∧ st.data l = some (.str L) ∧ st.data a = some (.str A)) ∧
        ∀ name, name ≠ P → name ≠ L → name ≠ A → (s.run env k xs data h).2.res name = h.res name) := by
  have hcommit : ∀ n p, (∀ id, id ≠ s.ident → (s.commit n p h).2.pos id = h.pos id) ∧
      ∀ name, name ≠ p.posName → name ≠ p.lpName → name ≠ p.accName → (s.commit n p h).2.res name = h.res name := by
    intro n p
    have f1 := Heap.updateBuffer_frame h p.posName (posArr n s.nRows p.rows) (h.pos s.ident : Nat)
    cases e1 : h.updateBuffer p.posName (posArr n s.nRows p.rows) (h.pos s.ident : Nat) with
    | mk r1 h1 =>
      rw [e1] at f1
      have f2 := Heap.updateBuffer_frame h1 p.lpName (lpArr n s.nRows p.rows) (h.pos s.ident : Nat)
      cases e2 : h1.updateBuffer p.lpName (lpArr n s.nRows p.rows) (h.pos s.ident : Nat) with
      | mk r2 h2 =>
        rw [e2] at f2
        have f3 := Heap.updateBuffer_frame h2 p.accName (accArr n s.nRows p.rows) (h.pos s.ident : Nat)
        cases e3 : h2.updateBuffer p.accName (accArr n s.nRows p.rows) (h.pos s.ident : Nat) with
        | mk r3 h3 =>
          rw [e3] at f3
          dsimp only at f1 f2 f3
          simp only [TakeSteps.commit, e1]
          cases r1 with
          | error e => exact ⟨fun id _ => by rw [f1.2], fun nm h1 _ _ => f1.1 nm h1⟩
          | ok _ =>
            dsimp only
            rw [e2]
            cases r2 with
            | error e => exact ⟨fun id _ => by simp only [f2.2, f1.2], fun nm a b _ => by rw [f2.1 nm b, f1.1 nm a]⟩
            | ok _ =>
              dsimp only
              rw [e3]
              cases r3 with
              | error e => exact ⟨fun id _ => by simp only [f3.2, f2.2, f1.2], fun nm a b c => by rw [f3.1 nm c, f2.1 nm b, f1.1 nm a]⟩
              | ok _ =>
                dsimp only
                have : ∀ nm, nm ≠ p.posName → nm ≠ p.lpName → nm ≠ p.accName → h3.res nm = h.res nm :=
                  fun nm a b c => by rw [f3.1 nm c, f2.1 nm b, f1.1 nm a]
                split
                · exact ⟨fun id hid => by simp [Heap.setPos, hid, f3.2, f2.2, f1.2], this⟩
                · exact ⟨fun id hid => by simp [Heap.setPos, hid, f3.2, f2.2, f1.2], this⟩
  unfold TakeSteps.run
  cases hp : s.plan env k xs data h with
  | error e => exact ⟨fun _ _ => rfl, Or.inl rfl⟩
  | ok p =>
    refine ⟨(hcommit _ p).1, Or.inr ?_⟩
    simp only [TakeSteps.plan, bind, Except.bind] at hp
    -- extract the lookups that succeeded
    revert hp
    cases hst : h.getState s.stateName with
    | error e => intro hp; simp at hp
    | ok st =>
      dsimp only
      cases h0 : bufferTarget st s.bufferNames 0 with
      | error e => intro hp; simp at hp
      | ok P =>
        dsimp only
        cases h1 : bufferTarget st s.bufferNames 1 with
        | error e => intro hp; simp at hp
        | ok L =>
          dsimp only
          cases h2 : bufferTarget st s.bufferNames 2 with
          | error e => intro hp; simp at hp
          | ok A =>
            dsimp only
            intro hp
            have hnames : p.posName = P ∧ p.lpName = L ∧ p.accName = A := by
              repeat' (split at hp; · simp at hp)
              simp only [Except.ok.injEq] at hp
              subst hp
              exact ⟨rfl, rfl, rfl⟩
            have hbt : ∀ i nm, bufferTarget st s.bufferNames i = .ok nm →
                ∃ p, s.bufferNames[i]? = some p ∧ st.data p = some (.str nm) := by
              intro i nm hb
              unfold bufferTarget at hb
              cases hi : s.bufferNames[i]? with
              | none => simp [hi] at hb
              | some p =>
                simp only [hi] at hb
                cases hd : st.data p with
                | none => simp [hd] at hb
                | some v =>
                  cases v with
                  | str x => simp [hd] at hb; subst hb; exact ⟨p, rfl, hd⟩
                  | int x => simp [hd] at hb
                  | bool x => simp [hd] at hb
            obtain ⟨p0, a0, b0⟩ := hbt 0 P h0
            obtain ⟨p1, a1, b1⟩ := hbt 1 L h1
            obtain ⟨p2, a2, b2⟩ := hbt 2 A h2
            have hst' : h.res s.stateName = some (.state st) := by
              unfold Heap.getState Heap.get at hst
              cases hh : h.res s.stateName with
              | none => simp [hh] at hst
              | some r => cases r <;> simp [hh] at hst ⊢; exact hst
            refine ⟨st, p0, p1, p2, P, L, A, hst', ⟨a0, a1, a2⟩, ⟨b0, b1, b2⟩, ?_⟩
            intro name n1 n2 n3
            exact (hcommit _ p).2 name (hnames.1 ▸ n1) (hnames.2.1 ▸ n2) (hnames.2.2 ▸ n3)

/-- A required resource is missing or has the wrong type at the call site. -/
def BadCallSite (h : Heap F D d M O) (s : TakeSteps) : Prop :=
  (∀ st, h.res s.stateName ≠ some (.state st)) ∨
  (∃ st, h.res s.stateName = some (.state st) ∧ ∃ i, i < 3 ∧
    ((∀ nm b, bufferTarget st s.bufferNames i = .ok nm → h.res nm ≠ some (.buffer b)))) ∨
  (∀ kr, h.res s.kernelName ≠ some (.kernel kr)) ∨
  (∀ l l', h.res s.logpdfName ≠ some (.logpdf l) ∧ h.res s.logpdfName ≠ some (.tempered l'))

/-- C19 (failure). If a required resource is missing or of the wrong type, the call raises and modifies nothing. -/
theorem C19_bad_site (env : Env F D d M O) (s : TakeSteps) (k : Key) (xs : List (Pos F d)) (data : Data D)
    (h : Heap F D d M O) (hbad : BadCallSite h s) : ∃ e, s.run env k xs data h = (.error e, h) := by
  suffices hp : ∃ e, s.plan env k xs data h = .error e by
    obtain ⟨e, he⟩ := hp
    exact ⟨e, by unfold TakeSteps.run; rw [he]⟩
  simp only [TakeSteps.plan, bind, Except.bind]
  cases hst : h.getState s.stateName with
  | error e => exact ⟨e, rfl⟩
  | ok st =>
    have hst' : h.res s.stateName = some (.state st) := by
      unfold Heap.getState Heap.get at hst
      cases hh : h.res s.stateName with
      | none => simp [hh] at hst
      | some r => cases r <;> simp [hh] at hst ⊢; exact hst
    dsimp only
    cases h0 : bufferTarget st s.bufferNames 0 with
    | error e => exact ⟨e, rfl⟩
    | ok P =>
      dsimp only
      cases h1 : bufferTarget st s.bufferNames 1 with
      | error e => exact ⟨e, rfl⟩
      | ok L =>
        dsimp only
        cases h2 : bufferTarget st s.bufferNames 2 with
        | error e => exact ⟨e, rfl⟩
        | ok A =>
          dsimp only
          have hgb : ∀ nm, (∃ e, h.getBuffer nm = .error e) ∨ ∃ b, h.getBuffer nm = .ok b ∧ h.res nm = some (.buffer b) := by
            intro nm
            unfold Heap.getBuffer Heap.get
            cases h.res nm with
            | none => exact Or.inl ⟨_, rfl⟩
            | some r => cases r <;> simp
          rcases hgb P with ⟨e, he⟩ | ⟨bP, eP, rP⟩
          · rw [he]; exact ⟨e, rfl⟩
          rw [eP]; dsimp only
          rcases hgb L with ⟨e, he⟩ | ⟨bL, eL, rL⟩
          · rw [he]; exact ⟨e, rfl⟩
          rw [eL]; dsimp only
          rcases hgb A with ⟨e, he⟩ | ⟨bA, eA, rA⟩
          · rw [he]; exact ⟨e, rfl⟩
          rw [eA]; dsimp only
          rcases hbad with hb | ⟨st', hs', i, hi, hb⟩ | hb | hb
          · exact absurd hst' (hb st)
          · rw [hst'] at hs'
            simp only [Option.some.injEq, Resource.state.injEq] at hs'
            subst hs'
            have : i = 0 ∨ i = 1 ∨ i = 2 := by omega
            rcases this with rfl | rfl | rfl
            · exact absurd rP (hb P bP h0)
            · exact absurd rL (hb L bL h1)
            · exact absurd rA (hb A bA h2)
          · unfold Heap.get
            cases hh : h.res s.kernelName with
            | none => exact ⟨_, rfl⟩
            | some kr =>
              dsimp only
              cases hl : h.res s.logpdfName with
              | none => exact ⟨_, rfl⟩
              | some lr =>
                dsimp only
                have : s.sampler env kr lr data = .error .typeError := by
                  unfold TakeSteps.sampler
                  cases kr <;> first | rfl | exact absurd hh (hb _)
                rw [this]; exact ⟨_, rfl⟩
          · unfold Heap.get
            cases hh : h.res s.kernelName with
            | none => exact ⟨_, rfl⟩
            | some kr =>
              dsimp only
              cases hl : h.res s.logpdfName with
              | none => exact ⟨_, rfl⟩
              | some lr =>
                dsimp only
                have : s.sampler env kr lr data = .error .typeError := by
                  unfold TakeSteps.sampler
                  cases lr with
                  | logpdf l =>
                    exact absurd hl (hb l ⟨l, l.logPdf⟩).1
                  | tempered l => exact absurd hl (hb l.base l).2
                  | _ => cases kr <;> rfl
                rw [this]; exact ⟨_, rfl⟩

/-- Non-vacuity of C19 (failure): a heap with no state. -/
example : BadCallSite (⟨fun _ => none, fun _ => 0⟩ : Heap Int Unit 1 Int Int) (Toy.stepper 3 1) := by
  left; intro st; simp

/-! ### What a successful call records -/

/-- A serial step strategy whose kernel resource is a local kernel `K` and whose density resource has target `t`. -/
structure SerialSite (env : Env F D d M O) (s : TakeSteps) (h : Heap F D d M O) (kr : KernelRes F d M)
    (K : LocalKernel F D d) (t : Target F D d) : Prop where
  kind : s.kind = .serial
  kernel : h.res s.kernelName = some (.kernel kr)
  isLocal : kr.local? env.rng = some K
  logpdf : ∃ lr, h.res s.logpdfName = some lr ∧ lr.target? = some t

/-- A group step strategy whose kernel resource is the flow kernel with model `m` and batch size `b`. -/
structure GroupSite (s : TakeSteps) (h : Heap F D d M O) (m : M) (b : Nat) (t : Target F D d) : Prop where
  kind : s.kind = .group
  kernel : h.res s.kernelName = some (.kernel (.nf m b))
  logpdf : ∃ lr, h.res s.logpdfName = some lr ∧ lr.target? = some t

theorem forall2_zip_splitN {β : Type} (k : Key) (xs : List (Pos F d)) (g : Key → Pos F d → β)
    (f : Key → Pos F d → Except Err β) (hg : ∀ k x, f k x = .ok (g k x)) :
    List.Forall₂ (fun (a : Key × Pos F d) r => f a.1 a.2 = .ok r) ((splitN k xs.length).zip xs)
      (((splitN k xs.length).zip xs).map (fun a => g a.1 a.2)) := by
  rw [List.forall₂_map_right_iff]
  exact List.forall₂_same.2 (fun a _ => hg _ _)

theorem zip_splitN_getElem? (k : Key) (xs : List (Pos F d)) (i : Nat) :
    ((splitN k xs.length).zip xs)[i]? = (xs[i]?).map (fun x => (Key.child k i, x)) := by
  by_cases h : i < xs.length
  · simp [List.getElem?_eq_getElem, h, splitN]
  · rw [List.getElem?_eq_none (by simp [splitN_length]; omega), List.getElem?_eq_none (by omega)]; rfl

/-- The rows a serial call produces before thinning: chain `i` runs with key `child (child k 1) i` from `xs[i]`. -/
def serialRows (K : LocalKernel F D d) (t : Target F D d) (data : Data D) (n : Nat) (k : Key) (xs : List (Pos F d)) :
    List (List (StepOut F d)) :=
  ((splitN (Key.child k 1) xs.length).zip xs).map (fun a => serialSample K t data n a.1 a.2)

theorem serial_call (env : Env F D d M O) (s : TakeSteps) (k : Key) (xs : List (Pos F d)) (data : Data D)
    (h : Heap F D d M O) (T : Nat) (P L A : String) (bP bL bA : Buffer F) (hpt : PointsAt h s P L A)
    (hr : Recorders h xs.length T P L A bP bL bA) (hfit : h.pos s.ident + ceilDiv' s.nSteps s.thinning ≤ T)
    (kr : KernelRes F d M) (K : LocalKernel F D d) (t : Target F D d) (hs : SerialSite env s h kr K t)
    (ht : 0 < s.thinning) (hn : 0 < s.nSteps) :
    ∃ ys h', s.run env k xs data h = (.ok (Key.child k 0, ys), h') ∧
      StepEffect s h h' xs.length T P L A bP bL bA ((serialRows K t data s.nSteps k xs).map (everyNth s.thinning)) ∧
      ys.length = xs.length ∧
      ∀ i : Nat, ys[i]? = ((serialRows K t data s.nSteps k xs)[i]?).bind
        (fun r => (r[(ceilDiv' s.nSteps s.thinning - 1) * s.thinning]?).map (·.pos)) := by
  obtain ⟨lr, hl, hlt⟩ := hs.logpdf
  refine C19_success env s k xs data h T P L A bP bL bA hpt hr hfit _ lr hs.kernel hl
    (fun k x => .ok (serialSample K t data s.nSteps k x)) ?_ _ ?_ ?_ ht hn
  · unfold TakeSteps.sampler
    rw [hlt]
    have := hs.isLocal
    simp only [hs.kind]
    cases kr with
    | nf m b => simp [KernelRes.local?] at this
    | _ => simp only [this]
  · exact forall2_zip_splitN _ xs (fun k x => serialSample K t data s.nSteps k x) _ (fun _ _ => rfl)
  · intro r hr
    unfold serialRows at hr
    rw [List.mem_map] at hr
    obtain ⟨a, _, rfl⟩ := hr
    exact serialSample_length _ _ _ _ _ _

theorem cell_everyNth {α : Type} (t : Nat) (ht : 0 < t) (rows : List (List α)) (i j : Nat) :
    cellOf (rows.map (everyNth t)) i j = cellOf rows i (j * t) := by
  unfold cellOf
  rw [List.getElem?_map]
  cases h : rows[i]? with
  | none => rfl
  | some r => simp [everyNth_getElem? t ht]

theorem serialRows_cell (K : LocalKernel F D d) (t : Target F D d) (data : Data D) (n : Nat) (k : Key) (xs : List (Pos F d))
    (i : Nat) : (serialRows K t data n k xs)[i]? =
      (xs[i]?).map (fun x => serialSample K t data n (Key.child (Key.child k 1) i) x) := by
  unfold serialRows
  rw [List.getElem?_map, zip_splitN_getElem?, Option.map_map]
  rfl

theorem lt_of_lt_ceil {n t j : Nat} (ht : 0 < t) (hn : 0 < n) (hj : j < ceilDiv' n t) : j * t < n := by
  have := ceilDiv'_mul_lt n t ht hn
  have h2 : j * t ≤ (ceilDiv' n t - 1) * t := Nat.mul_le_mul_right _ (by omega)
  omega

/-- C14 (recorded). After a call of a serial step strategy, every row it recorded — for every chain `i` and every recorded step
`j` — has in the log-probability buffer the log-density of the position in the position buffer. -/
theorem C14_recorded (env : Env F D d M O) (s : TakeSteps) (k : Key) (xs : List (Pos F d)) (data : Data D)
    (h : Heap F D d M O) (T : Nat) (P L A : String) (bP bL bA : Buffer F) (hpt : PointsAt h s P L A)
    (hr : Recorders h xs.length T P L A bP bL bA) (hfit : h.pos s.ident + ceilDiv' s.nSteps s.thinning ≤ T)
    (kr : KernelRes F d M) (K : LocalKernel F D d) (t : Target F D d) (hs : SerialSite env s h kr K t)
    (ht : 0 < s.thinning) (hn : 0 < s.nSteps) (hneg : ∀ a : F, - -a = a) :
    ∃ ys h' bP' bL', s.run env k xs data h = (.ok (Key.child k 0, ys), h') ∧
      h'.res P = some (.buffer bP') ∧ h'.res L = some (.buffer bL') ∧
      ∀ i j, i < xs.length → j < ceilDiv' s.nSteps s.thinning →
        bL'.data.get [i, h.pos s.ident + j] = t.val (row3 bP'.data i (h.pos s.ident + j)) data := by
  obtain ⟨ys, h', h1, he, -, -⟩ := serial_call env s k xs data h T P L A bP bL bA hpt hr hfit kr K t hs ht hn
  obtain ⟨bP', p1, p2⟩ := he.pos
  obtain ⟨bL', l1, l2⟩ := he.logp
  refine ⟨ys, h', bP', bL', h1, p1, l1, ?_⟩
  intro i j hi hj
  have hjt := lt_of_lt_ceil ht hn hj
  have hlen := serialSample_length K t data s.nSteps (Key.child (Key.child k 1) i) xs[i]
  have hc : cellOf ((serialRows K t data s.nSteps k xs).map (everyNth s.thinning)) i j =
      some ((serialSample K t data s.nSteps (Key.child (Key.child k 1) i) xs[i])[j * s.thinning]'(by omega)) := by
    rw [cell_everyNth _ ht]
    simp [cellOf, serialRows_cell, hi, hlen, hjt]
  rw [l2.inside i j _ hi hj (by rw [hc]; rfl)]
  have : (row3 bP'.data i (h.pos s.ident + j) : Pos F d) =
      ((serialSample K t data s.nSteps (Key.child (Key.child k 1) i) xs[i])[j * s.thinning]'(by omega)).pos := by
    funext c
    exact p2.inside i j _ hi hj (by rw [hc]; rfl) c
  rw [this]
  exact C14_logp_local env.rng kr K hs.isLocal hneg t data s.nSteps _ _ _ (List.getElem_mem _)

/-- C16 (recorded). With thinning 1: if a recorded row differs from the row before it (from the chain's start, for the first
row), then its recorded acceptance flag is "true". -/
theorem C16_recorded (env : Env F D d M O) (s : TakeSteps) (k : Key) (xs : List (Pos F d)) (data : Data D)
    (h : Heap F D d M O) (T : Nat) (P L A : String) (bP bL bA : Buffer F) (hpt : PointsAt h s P L A)
    (hr : Recorders h xs.length T P L A bP bL bA) (hfit : h.pos s.ident + s.nSteps ≤ T)
    (kr : KernelRes F d M) (K : LocalKernel F D d) (t : Target F D d) (hs : SerialSite env s h kr K t)
    (ht : s.thinning = 1) (hn : 0 < s.nSteps) :
    ∃ ys h' bP' bA', s.run env k xs data h = (.ok (Key.child k 0, ys), h') ∧
      h'.res P = some (.buffer bP') ∧ h'.res A = some (.buffer bA') ∧
      ∀ i j, (hi : i < xs.length) → j < s.nSteps →
        (if j = 0 then xs[i] else row3 bP'.data i (h.pos s.ident + (j - 1))) ≠ row3 bP'.data i (h.pos s.ident + j) →
        bA'.data.get [i, h.pos s.ident + j] = BufNum.ofBool true := by
  have hceil : ceilDiv' s.nSteps s.thinning = s.nSteps := by simp [ceilDiv', ht]
  obtain ⟨ys, h', h1, he, -, -⟩ := serial_call env s k xs data h T P L A bP bL bA hpt hr (by rw [hceil]; exact hfit)
    kr K t hs (by omega) hn
  obtain ⟨bP', p1, p2⟩ := he.pos
  obtain ⟨bA', a1, a2⟩ := he.acc
  rw [hceil] at p2 a2
  refine ⟨ys, h', bP', bA', h1, p1, a1, ?_⟩
  intro i j hi hj hne
  have hlen := serialSample_length K t data s.nSteps (Key.child (Key.child k 1) i) xs[i]
  have hc : ∀ j, (hj : j < s.nSteps) → cellOf ((serialRows K t data s.nSteps k xs).map (everyNth s.thinning)) i j =
      some ((serialSample K t data s.nSteps (Key.child (Key.child k 1) i) xs[i])[j]'(by omega)) := by
    intro j hj
    rw [cell_everyNth _ (by omega)]
    simp [cellOf, serialRows_cell, hi, hlen, hj, ht]
  have hp : ∀ j, (hj : j < s.nSteps) → (row3 bP'.data i (h.pos s.ident + j) : Pos F d) =
      ((serialSample K t data s.nSteps (Key.child (Key.child k 1) i) xs[i])[j]'(by omega)).pos := by
    intro j hj
    funext c
    exact p2.inside i j _ hi hj (by rw [hc j hj]; rfl) c
  rw [a2.inside i j _ hi hj (by rw [hc j hj]; rfl)]
  cases hacc : ((serialSample K t data s.nSteps (Key.child (Key.child k 1) i) xs[i])[j]'(by omega)).acc with
  | true => simp only [hacc]
  | false =>
    exfalso
    apply hne
    have := C16_serial_rows env.rng kr K hs.isLocal t data s.nSteps (Key.child (Key.child k 1) i) xs[i] j _
      (List.getElem?_eq_getElem (by omega)) hacc
    rw [hp j hj]
    cases j with
    | zero => simpa [posBefore] using this
    | succ j =>
      simp only [posBefore, List.getElem?_eq_getElem (show j < _ by rw [hlen]; omega), Option.map_some,
        Option.some.injEq] at this
      simp only [Nat.add_one_ne_zero, if_false, Nat.add_sub_cancel]
      rw [hp j (by omega), this]

/-- C17 (recorded). Row `j` recorded for chain `i` is step `j·t` of that chain's trajectory, and the position handed to the next
strategy is, for every chain, the last recorded row. -/
theorem C17_recorded (env : Env F D d M O) (s : TakeSteps) (k : Key) (xs : List (Pos F d)) (data : Data D)
    (h : Heap F D d M O) (T : Nat) (P L A : String) (bP bL bA : Buffer F) (hpt : PointsAt h s P L A)
    (hr : Recorders h xs.length T P L A bP bL bA) (hfit : h.pos s.ident + ceilDiv' s.nSteps s.thinning ≤ T)
    (kr : KernelRes F d M) (K : LocalKernel F D d) (t : Target F D d) (hs : SerialSite env s h kr K t)
    (ht : 0 < s.thinning) (hn : 0 < s.nSteps) :
    ∃ ys h' bP', s.run env k xs data h = (.ok (Key.child k 0, ys), h') ∧ h'.res P = some (.buffer bP') ∧
      ys.length = xs.length ∧
      (∀ i, (hi : i < xs.length) → ys[i]? = some (row3 bP'.data i (h.pos s.ident + (ceilDiv' s.nSteps s.thinning - 1)))) ∧
      (∀ i j, (hi : i < xs.length) → j < ceilDiv' s.nSteps s.thinning →
        (serialSample K t data s.nSteps (Key.child (Key.child k 1) i) xs[i])[j * s.thinning]?.map (·.pos) =
          some (row3 bP'.data i (h.pos s.ident + j))) := by
  obtain ⟨ys, h', h1, he, hy, hys⟩ := serial_call env s k xs data h T P L A bP bL bA hpt hr hfit kr K t hs ht hn
  obtain ⟨bP', p1, p2⟩ := he.pos
  have main : ∀ i j, (hi : i < xs.length) → j < ceilDiv' s.nSteps s.thinning →
        (serialSample K t data s.nSteps (Key.child (Key.child k 1) i) xs[i])[j * s.thinning]?.map (·.pos) =
          some (row3 bP'.data i (h.pos s.ident + j)) := by
    intro i j hi hj
    have hjt := lt_of_lt_ceil ht hn hj
    have hlen := serialSample_length K t data s.nSteps (Key.child (Key.child k 1) i) xs[i]
    have hc : cellOf ((serialRows K t data s.nSteps k xs).map (everyNth s.thinning)) i j =
        some ((serialSample K t data s.nSteps (Key.child (Key.child k 1) i) xs[i])[j * s.thinning]'(by omega)) := by
      rw [cell_everyNth _ ht]
      simp [cellOf, serialRows_cell, hi, hlen, hjt]
    rw [List.getElem?_eq_getElem (by omega), Option.map_some, Option.some.injEq]
    funext c
    exact (p2.inside i j _ hi hj (by rw [hc]; rfl) c).symm
  refine ⟨ys, h', bP', h1, p1, hy, ?_, main⟩
  intro i hi
  have hpos := ceilDiv'_pos s.nSteps s.thinning ht hn
  rw [hys i, serialRows_cell, ← main i _ hi (by omega)]
  simp [hi]

/-- The rows a group (flow) call produces. -/
theorem group_call (env : Env F D d M O) (hl : env.ops.Lawful) (s : TakeSteps) (k : Key) (xs : List (Pos F d)) (data : Data D)
    (h : Heap F D d M O) (T : Nat) (P L A : String) (bP bL bA : Buffer F) (hpt : PointsAt h s P L A)
    (hr : Recorders h xs.length T P L A bP bL bA) (hfit : h.pos s.ident + ceilDiv' s.nSteps s.thinning ≤ T)
    (m : M) (b : Nat) (t : Target F D d) (hs : GroupSite s h m b t) (hb : 0 < b)
    (ht : 0 < s.thinning) (hn : 0 < s.nSteps) :
    ∃ rows ys h', List.Forall₂ (fun (a : Key × Pos F d) r => groupSample env m b t data s.nSteps a.1 a.2 = .ok r)
        ((splitN (Key.child k 1) xs.length).zip xs) rows ∧ (∀ r ∈ rows, r.length = s.nSteps) ∧
      s.run env k xs data h = (.ok (Key.child k 0, ys), h') ∧
      StepEffect s h h' xs.length T P L A bP bL bA (rows.map (everyNth s.thinning)) ∧
      ys.length = xs.length ∧
      ∀ i : Nat, ys[i]? = (rows[i]?).bind (fun r => (r[(ceilDiv' s.nSteps s.thinning - 1) * s.thinning]?).map (·.pos)) := by
  have hall : ∀ k x, ∃ r, groupSample env m b t data s.nSteps k x = .ok r ∧ r.length = s.nSteps :=
    fun k x => groupSample_ok env hl m b hb t data s.nSteps k x
  choose g hg hglen using hall
  have hlens : ∀ r ∈ ((splitN (Key.child k 1) xs.length).zip xs).map (fun a => g a.1 a.2), r.length = s.nSteps := by
    intro r hr
    simp only [List.mem_map] at hr
    obtain ⟨a, _, rfl⟩ := hr
    exact hglen _ _
  obtain ⟨lr, hl, hlt⟩ := hs.logpdf
  have hf := forall2_zip_splitN (Key.child k 1) xs g (fun k x => groupSample env m b t data s.nSteps k x) hg
  obtain ⟨ys, h', h1, h2, h3, h4⟩ := C19_success env s k xs data h T P L A bP bL bA hpt hr hfit _ lr hs.kernel hl
    (fun k x => groupSample env m b t data s.nSteps k x) (by
      unfold TakeSteps.sampler
      rw [hlt]
      simp only [hs.kind]) _ hf hlens ht hn
  exact ⟨_, ys, h', hf, hlens, h1, h2, h3, h4⟩

/-- C15 (recorded). Same as C14 for the flow kernel: for every proposal batch size `b ≥ 1`. -/
theorem C15_recorded (env : Env F D d M O) (hl : env.ops.Lawful) (s : TakeSteps) (k : Key) (xs : List (Pos F d)) (data : Data D)
    (h : Heap F D d M O) (T : Nat) (P L A : String) (bP bL bA : Buffer F) (hpt : PointsAt h s P L A)
    (hr : Recorders h xs.length T P L A bP bL bA) (hfit : h.pos s.ident + ceilDiv' s.nSteps s.thinning ≤ T)
    (m : M) (b : Nat) (t : Target F D d) (hign : IgnoresNSteps t) (hs : GroupSite s h m b t) (hb : 0 < b)
    (ht : 0 < s.thinning) (hn : 0 < s.nSteps) :
    ∃ ys h' bP' bL', s.run env k xs data h = (.ok (Key.child k 0, ys), h') ∧
      h'.res P = some (.buffer bP') ∧ h'.res L = some (.buffer bL') ∧
      ∀ i j, i < xs.length → j < ceilDiv' s.nSteps s.thinning →
        bL'.data.get [i, h.pos s.ident + j] = t.val (row3 bP'.data i (h.pos s.ident + j)) data := by
  obtain ⟨rows, ys, h', hf, hlens, h1, he, -, -⟩ := group_call env hl s k xs data h T P L A bP bL bA hpt hr hfit m b t hs hb ht hn
  obtain ⟨bP', p1, p2⟩ := he.pos
  obtain ⟨bL', l1, l2⟩ := he.logp
  refine ⟨ys, h', bP', bL', h1, p1, l1, ?_⟩
  intro i j hi hj
  have hjt := lt_of_lt_ceil ht hn hj
  have hri : i < rows.length := by rw [← hf.length_eq]; simp [splitN_length, hi]
  have hlen := hlens rows[i] (List.getElem_mem _)
  have hc : cellOf (rows.map (everyNth s.thinning)) i j = some (rows[i][j * s.thinning]'(by omega)) := by
    rw [cell_everyNth _ ht]
    simp [cellOf, hri, hlen, hjt]
  rw [l2.inside i j _ hi hj (by rw [hc]; rfl)]
  have : (row3 bP'.data i (h.pos s.ident + j) : Pos F d) = (rows[i][j * s.thinning]'(by omega)).pos := by
    funext c
    exact p2.inside i j _ hi hj (by rw [hc]; rfl) c
  rw [this]
  have hgi := (List.forall₂_iff_get.1 hf).2 i (by simp [splitN_length, hi]) hri
  simp only [List.get_eq_getElem] at hgi
  obtain ⟨r, hr1, -, hr3⟩ := C15_logp_nf env hl m b hb t hign data s.nSteps
    (((splitN (Key.child k 1) xs.length).zip xs)[i]'(by simp [splitN_length, hi])).1
    (((splitN (Key.child k 1) xs.length).zip xs)[i]'(by simp [splitN_length, hi])).2
  rw [hgi] at hr1
  simp only [Except.ok.injEq] at hr1
  subst hr1
  exact hr3 _ (List.getElem_mem _)

/-! ### C18 -/

/-- C18 (partial: `t ∣ n`). When the thinning divides the number of steps, a second call (even with other positions, key and
data) leaves all rows recorded by the first call in place. Missing for the full property: the case `t ∤ n`, in which it is
false (`C18_overwrites`, `C18_row_lost`). -/
theorem C18_no_row_lost_partial (s : TakeSteps) (h h1 h2 : Heap F D d M O) (n T : Nat) (P L A : String)
    (bP bL bA bP1 bL1 bA1 : Buffer F) (rec rec' : List (List (StepOut F d)))
    (e1 : StepEffect s h h1 n T P L A bP bL bA rec)
    (r1 : Recorders h1 n T P L A bP1 bL1 bA1)
    (e2 : StepEffect s h1 h2 n T P L A bP1 bL1 bA1 rec')
    (hfit : h.pos s.ident + ceilDiv' s.nSteps s.thinning ≤ T)
    (ht : 0 < s.thinning) (hdvd : s.thinning ∣ s.nSteps) (i j : Nat) (hi : i < n) (hj : j < ceilDiv' s.nSteps s.thinning)
    (o : StepOut F d) (ho : cellOf rec i j = some o) :
    ∃ b2 l2 a2, h2.res P = some (.buffer b2) ∧ h2.res L = some (.buffer l2) ∧ h2.res A = some (.buffer a2) ∧
      (∀ c : Fin d, b2.data.get [i, h.pos s.ident + j, c] = o.pos c) ∧
      l2.data.get [i, h.pos s.ident + j] = o.logp ∧ a2.data.get [i, h.pos s.ident + j] = BufNum.ofBool o.acc := by
  have hc := ceilDiv'_dvd s.nSteps s.thinning ht hdvd
  obtain ⟨b1, p1, p2⟩ := e1.pos
  obtain ⟨l1, q1, q2⟩ := e1.logp
  obtain ⟨a1, s1, s2⟩ := e1.acc
  rw [r1.resP] at p1; simp only [Option.some.injEq, Resource.buffer.injEq] at p1; subst p1
  rw [r1.resL] at q1; simp only [Option.some.injEq, Resource.buffer.injEq] at q1; subst q1
  rw [r1.resA] at s1; simp only [Option.some.injEq, Resource.buffer.injEq] at s1; subst s1
  obtain ⟨b2, p3, p4⟩ := e2.pos
  obtain ⟨l2, q3, q4⟩ := e2.logp
  obtain ⟨a2, s3, s4⟩ := e2.acc
  have hcur := e1.cursor
  refine ⟨b2, l2, a2, p3, q3, s3, ?_, ?_, ?_⟩
  · intro c
    rw [p4.outside i _ c hi (by omega) (by omega)]
    exact p2.inside i j _ hi hj (by rw [ho]; rfl) c
  · rw [q4.outside i _ hi (by omega) (by omega)]
    exact q2.inside i j _ hi hj (by rw [ho]; rfl)
  · rw [s4.outside i _ hi (by omega) (by omega)]
    exact s2.inside i j _ hi hj (by rw [ho]; rfl)

/-- C18 is false in general: if the thinning does *not* divide the number of steps, the next call writes its first row over
the last row recorded by the previous one — for every kernel, target and number of chains. -/
theorem C18_overwrites (s : TakeSteps) (h h1 h2 : Heap F D d M O) (n T : Nat) (P L A : String)
    (bP bL bA bP1 bL1 bA1 : Buffer F) (rec rec' : List (List (StepOut F d)))
    (e1 : StepEffect s h h1 n T P L A bP bL bA rec)
    (e2 : StepEffect s h1 h2 n T P L A bP1 bL1 bA1 rec')
    (ht : 0 < s.thinning) (hn : 0 < s.nSteps) (hdvd : ¬ s.thinning ∣ s.nSteps) (i : Nat) (hi : i < n) (o : StepOut F d)
    (ho : cellOf rec' i 0 = some o) :
    ∃ b2, h2.res P = some (.buffer b2) ∧
      ∀ c : Fin d, b2.data.get [i, h.pos s.ident + (ceilDiv' s.nSteps s.thinning - 1), c] = o.pos c := by
  have hfl : ceilDiv' s.nSteps s.thinning - 1 = s.nSteps / s.thinning := by
    have h1 := Nat.div_add_mod s.nSteps s.thinning
    have h2 := Nat.mod_lt s.nSteps ht
    have h3 : s.nSteps % s.thinning ≠ 0 := fun h => hdvd (Nat.dvd_of_mod_eq_zero h)
    have : ceilDiv' s.nSteps s.thinning = s.nSteps / s.thinning + 1 := by
      unfold ceilDiv'
      rw [Nat.div_eq_iff ht]
      rw [Nat.mul_comm] at h1
      have : (s.nSteps / s.thinning + 1) * s.thinning = s.nSteps / s.thinning * s.thinning + s.thinning := by
        rw [Nat.add_mul, Nat.one_mul]
      generalize s.nSteps / s.thinning * s.thinning = q at *
      generalize s.nSteps % s.thinning = r at *
      omega
    rw [this, Nat.add_sub_cancel]
  obtain ⟨b2, p3, p4⟩ := e2.pos
  refine ⟨b2, p3, fun c => ?_⟩
  have := p4.inside i 0 o.pos hi (ceilDiv'_pos _ _ ht hn) (by rw [ho]; rfl) c
  rw [e1.cursor, Nat.add_zero] at this
  rw [hfl]
  exact this

/-- Value of a cell of a buffer resource. -/
def readCell (h : Heap Int Unit 1 Int Int) (name : String) (idx : List Nat) : Option Int :=
  match h.res name with
  | some (.buffer b) => some (b.data.get idx)
  | _ => none

/-- C18 (witness of failure). Two successive calls with 3 steps and thinning 2 on a buffer with plenty of room: the first records
steps 0 and 2 (positions 1 and 3) of chain 0; after the second call the row of step 2 is gone. -/
theorem C18_row_lost :
    let h1 := ((Toy.stepper 3 2).run Toy.env (.root 0) Toy.start Toy.data (Toy.heap 10)).2
    let h2 := ((Toy.stepper 3 2).run Toy.env (.root 1) Toy.start Toy.data h1).2
    (readCell h1 "P" [0, 0, 0] = some 1 ∧ readCell h1 "P" [0, 1, 0] = some 3) ∧
    (readCell h2 "P" [0, 0, 0] = some 1 ∧ readCell h2 "P" [0, 1, 0] = some 1 ∧ readCell h2 "P" [0, 2, 0] = some 3 ∧
      readCell h2 "P" [0, 3, 0] = some (-1000000)) := by
  decide

/-- Non-vacuity of C14–C19 (recorded/success): the toy world meets the hypotheses (2 chains, 5 steps thinned by 2). -/
example :
    PointsAt (Toy.heap 6) (Toy.stepper 5 2) "P" "L" "A" ∧
    (∃ bP bL bA, Recorders (Toy.heap 6) Toy.start.length 6 "P" "L" "A" bP bL bA) ∧
    (Toy.heap 6).pos (Toy.stepper 5 2).ident + ceilDiv' 5 2 ≤ 6 ∧
    (∃ kr K, SerialSite Toy.env (Toy.stepper 5 2) (Toy.heap 6) kr K Toy.target) ∧ (∀ a : Int, - -a = a) := by
  refine ⟨⟨_, "p", "l", "a", [], rfl, rfl, rfl, rfl, rfl⟩, ⟨_, _, _, ⟨rfl, rfl, rfl, rfl, rfl, rfl, rfl, rfl, rfl, by decide⟩⟩,
    by decide, ⟨.grw 1, _, ⟨rfl, rfl, rfl, ⟨_, rfl, rfl⟩⟩⟩, by simp⟩

/-- Non-vacuity of C15 (recorded): the flow kernel of the toy world. -/
example : GroupSite { Toy.stepper 5 2 with kind := .group, kernelName := "flow" } (Toy.heap 6) 7 2 Toy.target ∧
    IgnoresNSteps Toy.target ∧ Toy.env.ops.Lawful := by
  refine ⟨⟨rfl, rfl, ⟨_, rfl, rfl⟩⟩, fun _ _ _ _ => rfl, fun m k n => by simp [Toy.env, Toy.ops]⟩

end FlowMC
