import Verif.Props.Backwards
/-
C119: what several calls of a stepper record, compared with one long call.
-/
open MeasureTheory ProbabilityTheory
open scoped ENNReal
set_option linter.unusedSectionVars false
namespace FlowMC
open Spec

section
variable {X N : Type} [MeasurableSpace X] [MeasurableSpace N] {ν : Measure N} {step : N → X → X}

/-- A trajectory of `A + B` steps is one of `A` steps followed by one of `B` steps. -/
theorem pathWeight_append (A B : ℕ) (f : ℕ → X → ℝ≥0∞) :
    pathWeight ν step (A + B) f = pathWeight ν step A (fun j x => if j = A then pathWeight ν step B (fun i => f (A + i)) x else f j x) := by
  induction A generalizing f with
  | zero => funext x; simp only [pathWeight, if_true, Nat.zero_add]
  | succ A ih =>
    funext x
    rw [show A + 1 + B = (A + B) + 1 by omega]
    simp only [pathWeight]
    rw [if_neg (by omega), ih]
    refine congrArg (f 0 x * ·) (lintegral_congr fun w => ?_)
    refine congrFun (pathWeight_congr A _ _ fun j _ => ?_) _
    funext y
    by_cases hj : j = A
    · subst hj
      rw [if_pos rfl, if_pos rfl]
      exact congrFun (pathWeight_congr B _ _ fun i _ => by rw [show j + 1 + i = j + i + 1 by omega]) y
    · rw [if_neg hj, if_neg (by omega)]

/-- Two trajectories of the same chain with equally distributed starts are equally distributed. -/
theorem IsPath.same_law {Ω : Type} [MeasurableSpace Ω] {P : Measure Ω} [IsProbabilityMeasure P] {μ : Measure X} {n : ℕ} {Z Z' : ℕ → Ω → X} (h : IsPath P ν step μ n Z) (h' : IsPath P ν step μ n Z') :
    P.map (fun ω (j : Fin (n + 1)) => Z j ω) = P.map (fun ω (j : Fin (n + 1)) => Z' j ω) := by
  refine map_eq_of_boxes _ _ (measurable_pi_lambda _ fun j => h.meas _ (by omega)) (measurable_pi_lambda _ fun j => h'.meas _ (by omega)) fun A hA => ?_
  have hf : ∀ j, Measurable ((fun j x => if hj : j < n + 1 then (A ⟨j, hj⟩).indicator (1 : X → ℝ≥0∞) x else 1 : ℕ → X → ℝ≥0∞) j) := fun j => by
    by_cases hj : j < n + 1
    · simp only [hj, dif_pos]; exact measurable_one.indicator (hA _)
    · simp only [hj, dif_neg, not_false_eq_true]; exact measurable_const
  have e : ∀ Y : ℕ → Ω → X, ∀ ω, ∏ j : Fin (n + 1), (A j).indicator (1 : X → ℝ≥0∞) (Y j ω) = ∏ j ∈ Finset.range (n + 1), if hj : j < n + 1 then (A ⟨j, hj⟩).indicator (1 : X → ℝ≥0∞) (Y j ω) else 1 := by
    intro Y ω
    rw [Finset.prod_range]
    exact Finset.prod_congr rfl fun j _ => by rw [dif_pos j.2]
  simp only [e]
  rw [h.law _ hf, h'.law _ hf]
end

variable {Ω D M O : Type} {d : ℕ}
variable {T : Key → Prop} {past : MeasurableSpace Ω} {sig : Key → MeasurableSpace Ω} [mΩ : MeasurableSpace Ω] {P : Measure Ω} [IsProbabilityMeasure P] {env : Ω → Env ℝ D d M O} [BufNum ℝ]

/-- A call of a stepper whose position buffer it finds in order: it leaves everything in order for the next call. -/
theorem takeSteps_again (env : Env ℝ D d M O) (s : TakeSteps) (w w1 : World ℝ D d M O) (data : Data D) (hr : s.run env w.key w.xs data w.heap = (.ok (w1.key, w1.xs), w1.heap)) (hn : 0 < s.nSteps)
    (cap : ℕ) (Pn L A : String) (bP bL bA : Buffer ℝ) (hpt : PointsAt w.heap s Pn L A) (hrec : Recorders w.heap w.xs.length cap Pn L A bP bL bA) (hfit : w.heap.pos s.ident + ceilDiv' s.nSteps s.thinning ≤ cap)
    (kr lr : Resource ℝ D d M O) (hk : w.heap.res s.kernelName = some kr) (hl : w.heap.res s.logpdfName = some lr)
    (hlen : ∀ f a x r, s.sampler env kr lr data = .ok f → f a x = .ok r → r.length = s.nSteps) :
    0 < s.thinning ∧ w1.key = .child w.key 0 ∧ w1.xs.length = w.xs.length ∧ PointsAt w1.heap s Pn L A ∧ w1.heap.pos s.ident = w.heap.pos s.ident + s.nSteps / s.thinning ∧
    ∃ bP' bL' bA', Recorders w1.heap w.xs.length cap Pn L A bP' bL' bA' ∧
      (∀ i j (a : Fin d), i < w.xs.length → j < w.heap.pos s.ident → bP'.data.get [i, j, a] = bP.data.get [i, j, a]) ∧
      ∀ i x, w.xs[i]? = some x → ∃ r, (∃ f, s.sampler env kr lr data = .ok f ∧ f (.child (.child w.key 1) i) x = .ok r) ∧ w1.xs[i]? = (r[lastRow s]?).map (·.pos) ∧
        ∀ j < ceilDiv' s.nSteps s.thinning, ∀ v, (r[j * s.thinning]?).map (·.pos) = some v → ∀ a : Fin d, bP'.data.get [i, w.heap.pos s.ident + j, a] = v a := by
  obtain ⟨ht, kr', lr', f, rows, h1, h2, h3, h4⟩ := takeSteps_rows env s _ _ _ _ data _ _ hr
  rw [hk, Option.some.injEq] at h1
  rw [hl, Option.some.injEq] at h2
  subst h1; subst h2
  have hlens : ∀ r ∈ rows, r.length = s.nSteps := by
    intro r hr
    obtain ⟨⟨a, hl⟩, rfl⟩ := List.mem_iff_get.1 hr
    exact hlen f _ _ _ h3 ((List.forall₂_iff_get.1 h4).2 a (h4.length_eq ▸ hl) hl)
  obtain ⟨ys, h', e, he, hyl, hy⟩ := C19_success env s w.key w.xs data w.heap cap Pn L A bP bL bA hpt hrec hfit kr lr hk hl f h3 rows h4 hlens ht hn
  rw [hr, Prod.mk.injEq, Except.ok.injEq, Prod.mk.injEq] at e
  obtain ⟨⟨ek, ex⟩, eh⟩ := e
  rw [← ex] at hy hyl
  rw [← eh] at he
  obtain ⟨bP', p1, p2⟩ := he.pos
  obtain ⟨bL', l1, l2⟩ := he.logp
  obtain ⟨bA', a1, a2⟩ := he.acc
  refine ⟨ht, ek, hyl, ?_, he.cursor, bP', bL', bA', ⟨p1, l1, a1, by rw [p2.same.2.2.2, hrec.shapeP], by rw [l2.same.2.2.2, hrec.shapeL], by rw [a2.same.2.2.2, hrec.shapeA],
    by rw [p2.same.2.2.1, hrec.dimP], by rw [l2.same.2.2.1, hrec.dimL], by rw [a2.same.2.2.1, hrec.dimA], hrec.ne⟩, fun i j a hi hj => p2.outside i j a hi (by omega) (by omega), fun i x hx => ?_⟩
  · obtain ⟨st, p, l, a, rest, q1, q2⟩ := hpt
    refine ⟨st, p, l, a, rest, ?_, q2⟩
    rw [he.frame _ (fun e => ?_) (fun e => ?_) (fun e => ?_), q1]
    · rw [e, hrec.resP] at q1; simp at q1
    · rw [e, hrec.resL] at q1; simp at q1
    · rw [e, hrec.resA] at q1; simp at q1
  · have hz : ((splitN (.child w.key 1) w.xs.length).zip w.xs)[i]? = some (.child (.child w.key 1) i, x) := by
      rw [zip_splitN_getElem?, hx]; rfl
    have hi := (List.getElem?_eq_some_iff.1 hz).1
    have hi' : i < rows.length := h4.length_eq ▸ hi
    have e1 := (List.forall₂_iff_get.1 h4).2 i hi hi'
    have e0 : ((splitN (.child w.key 1) w.xs.length).zip w.xs).get ⟨i, hi⟩ = (.child (.child w.key 1) i, x) := (List.getElem?_eq_some_iff.1 hz).2
    rw [e0] at e1
    refine ⟨rows[i], ⟨f, h3, e1⟩, ?_, fun j hj v hv a => ?_⟩
    · rw [hy i, List.getElem?_eq_getElem hi', Option.bind_some]; rfl
    · exact p2.inside i j v (List.getElem?_eq_some_iff.1 hx).1 hj (by
        beta_reduce
        rw [cell_everyNth _ ht, cellOf, List.getElem?_eq_getElem hi', Option.bind_some]; exact hv) a

/-- `m` calls of a stepper: what they record is one trajectory, of which the steps after the last recorded row of each call are left out. -/
theorem calls_path (k : Key) (h : IdealOn (Desc k) past sig P env) (r0 : String → Option (Resource ℝ D d M O)) (data : Data D) (s : TakeSteps) (hn : 0 < s.nSteps) (hdvd : s.thinning ∣ s.nSteps)
    {ν : Measure (Pos ℝ d × ℝ)} [IsProbabilityMeasure ν] {step : Pos ℝ d × ℝ → Pos ℝ d → Pos ℝ d} (hsm : Measurable (fun p : Pos ℝ d × (Pos ℝ d × ℝ) => step p.2 p.1))
    (hs : StepperPaths (Desc k) past sig P env r0 data s ν step) (i : ℕ) (X : Ω → Pos ℝ d) (hXm : Measurable[past] X) (n cap cur : ℕ) (Pn L A : String) (bP bL bA : Ω → Buffer ℝ)
    (w : ℕ → Ω → World ℝ D d M O) (hkey : ∀ ω, (w 0 ω).key = k) (hres : ∀ ω, KeepsSamplers r0 (w 0 ω).heap) (hX : ∀ ω, (w 0 ω).xs[i]? = some (X ω)) (hw : ∀ ω, (w 0 ω).xs.length = n)
    (hpt : ∀ ω, PointsAt (w 0 ω).heap s Pn L A) (hrec : ∀ ω, Recorders (w 0 ω).heap n cap Pn L A (bP ω) (bL ω) (bA ω)) (hcur : ∀ ω, (w 0 ω).heap.pos s.ident = cur)
    (m : ℕ) (hfit : cur + m * (s.nSteps / s.thinning) ≤ cap)
    (hcall : ∀ p < m, ∀ ω, s.run (env ω) (w p ω).key (w p ω).xs data (w p ω).heap = (.ok ((w (p + 1) ω).key, (w (p + 1) ω).xs), (w (p + 1) ω).heap)) :
    ∃ (k' : Key) (S' : Set (Option Key)) (Z : ℕ → Ω → Pos ℝ d) (bP' bL' bA' : Ω → Buffer ℝ), Desc k k' ∧ Disjoint S' (descSet k') ∧ (∀ ω, (w m ω).key = k') ∧ (∀ ω, KeepsSamplers r0 (w m ω).heap) ∧
      (∀ ω, (w m ω).xs.length = n) ∧ (∀ ω, (w m ω).xs[i]? = some (Z (m * (lastRow s + 1)) ω)) ∧ (∀ j ≤ m * (lastRow s + 1), Measurable[info past sig S'] (Z j)) ∧
      (∀ f : ℕ → Pos ℝ d → ℝ≥0∞, (∀ j, Measurable (f j)) →
        ∫⁻ ω, ∏ j ∈ Finset.range (m * (lastRow s + 1) + 1), f j (Z j ω) ∂P = ∫⁻ x, pathWeight ν step (m * (lastRow s + 1)) f x ∂(P.map X)) ∧
      (∀ ω, PointsAt (w m ω).heap s Pn L A) ∧ (∀ ω, Recorders (w m ω).heap n cap Pn L A (bP' ω) (bL' ω) (bA' ω)) ∧ (∀ ω, (w m ω).heap.pos s.ident = cur + m * (s.nSteps / s.thinning)) ∧
      ∀ ω, ∀ p < m, ∀ j < s.nSteps / s.thinning, ∀ a : Fin d, (bP' ω).data.get [i, cur + (p * (s.nSteps / s.thinning) + j), a] = Z (p * (lastRow s + 1) + (j * s.thinning + 1)) ω a := by
  have hXm' : Measurable[info past sig {none}] X := hXm.mono (by exact le_iSup₂_of_le (none : Option Key) rfl le_rfl) le_rfl
  induction m with
  | zero =>
    refine ⟨k, {none}, fun _ => X, bP, bL, bA, .refl, by rw [Set.disjoint_left]; rintro o ho ⟨a, rfl, _⟩; simp at ho, hkey, hres, hw, hX, fun _ _ => hXm', fun f hf => ?_, hpt, hrec,
      fun ω => by rw [hcur ω]; omega, fun ω p hp => absurd hp (by omega)⟩
    rw [lintegral_map (pathWeight_measurable hsm _ f hf) (hXm'.mono (h.info_le _) le_rfl)]
    simp [pathWeight]
  | succ m ih =>
    obtain ⟨k', S', Z, bP', bL', bA', hd, hdis, hkey', hres', hw', hX', hZm, hZl, hpt', hrec', hcur', hcells⟩ :=
      ih (by rw [Nat.add_mul] at hfit; omega) fun p hp => hcall p (by omega)
    obtain ⟨kr, lr, hkr, hkr', hlr, hlr', hlen, hs⟩ := hs
    set q := lastRow s + 1 with hq
    set C := s.nSteps / s.thinning with hC
    have hceil : ceilDiv' s.nSteps s.thinning = C := by
      obtain ⟨c, hc⟩ := hdvd
      rcases Nat.eq_zero_or_pos s.thinning with h0 | h0
      · rw [h0] at hc; omega
      · rw [hC, hc, Nat.mul_div_cancel_left _ h0]
        unfold ceilDiv'
        rw [show s.thinning * c + s.thinning - 1 = (s.thinning - 1) + s.thinning * c by omega, Nat.add_mul_div_left _ _ h0, Nat.div_eq_of_lt (by omega)]
        omega
    have hstep := fun ω => takeSteps_again (env ω) s (w m ω) (w (m + 1) ω) data (hcall m (by omega) ω) hn cap Pn L A (bP' ω) (bL' ω) (bA' ω) (hpt' ω) (by rw [hw']; exact hrec' ω)
      (by rw [hcur', hceil]; rw [Nat.add_mul] at hfit; omega) kr lr (hres' ω _ _ hkr hkr') (hres' ω _ _ hlr hlr') (hlen ω)
    have ht : 0 < s.thinning := by obtain ⟨ω0⟩ : Nonempty Ω := P.nonempty_of_neZero; exact (hstep ω0).1
    have hlt : lastRow s < s.nSteps := lastRow_lt s ht hn
    choose bP2 bL2 bA2 hrec2 hout hin using fun ω => (hstep ω).2.2.2.2.2
    choose r hr hlast hcell using fun ω => hin ω i _ (hX' ω)
    simp only [hkey'] at hr
    have hd2 : Desc k (.child (.child k' 1) i) := desc_trans hd (.child i (.child 1 .refl))
    obtain ⟨Y, hYm, hY0, hYl, hYr⟩ := hs _ (fun b hb => desc_trans hd2 hb) S' (hdis.mono_right (descSet_mono (.child i (.child 1 .refl)))) _ (hZm _ le_rfl) r hr
    refine ⟨.child k' 0, S' ∪ descSet (.child (.child k' 1) i), fun j ω => if j ≤ m * q then Z j ω else Y (j - m * q) ω, bP2, bL2, bA2, .child 0 hd, ?_, fun ω => by rw [(hstep ω).2.1, hkey'], fun ω => ?_,
      fun ω => by rw [(hstep ω).2.2.1, hw'], fun ω => ?_, fun j hj => ?_, fun f hf => ?_, fun ω => (hstep ω).2.2.2.1, fun ω => by rw [← hw' ω]; exact hrec2 ω,
      fun ω => by rw [(hstep ω).2.2.2.2.1, hcur']; ring, fun ω p hp j hj a => ?_⟩
    · rw [Set.disjoint_union_left]
      refine ⟨hdis.mono_right descSet_child, ?_⟩
      rw [Set.disjoint_left]
      rintro _ ⟨a, rfl, h1⟩ ⟨b, e, h2⟩
      rw [Option.some.injEq] at e
      subst e
      exact children_disjoint (show (1 : ℕ) ≠ 0 by decide) ⟨desc_trans (.child i .refl) h1, h2⟩
    · have := takeSteps_keeps (env ω) s (w m ω).key (w m ω).xs data (w m ω).heap (hres' ω)
      rw [hcall m (by omega) ω] at this
      exact this
    · beta_reduce
      rw [hlast ω, hYr _ hlt ω, if_neg (show ¬ (m + 1) * q ≤ m * q by rw [Nat.add_mul]; omega), show (m + 1) * q - m * q = lastRow s + 1 by rw [Nat.add_mul]; omega]
    · by_cases hjm : j ≤ m * q
      · simp only [hjm, if_true]
        exact (hZm j hjm).mono (info_mono Set.subset_union_left) le_rfl
      · simp only [hjm, if_false]
        exact hYm _ (by rw [Nat.add_mul] at hj; omega)
    · -- the factors of the earlier calls are a weight that the new call does not influence
      have hW : Measurable[info past sig S'] (fun ω => ∏ j ∈ Finset.range (m * q), f j (Z j ω)) :=
        Finset.measurable_fun_prod _ fun j hj => (hf j).comp (hZm j (by have := Finset.mem_range.1 hj; omega))
      set g : ℕ → Pos ℝ d → ℝ≥0∞ := fun j => if j ≤ q then f (m * q + j) else fun _ => 1 with hg
      have hgm : ∀ j, Measurable (g j) := fun j => by simp only [hg]; split; exacts [hf _, measurable_const]
      have hpw : pathWeight ν step s.nSteps g = pathWeight ν step q (fun j => f (m * q + j)) := by
        rw [show s.nSteps = q + (s.nSteps - q) by omega, pathWeight_trails _ _ _ fun j hj => by simp only [hg]; rw [if_neg (by omega)]]
        exact pathWeight_congr _ _ _ fun j hj => by simp only [hg]; rw [if_pos hj]
      have e1 := hYl _ hW g hgm
      rw [hpw] at e1
      have e2 : ∀ ω, (∏ j ∈ Finset.range (m * q), f j (Z j ω)) * ∏ j ∈ Finset.range (s.nSteps + 1), g j (Y j ω) =
          ∏ j ∈ Finset.range ((m + 1) * q + 1), f j (if j ≤ m * q then Z j ω else Y (j - m * q) ω) := by
        intro ω
        rw [show (m + 1) * q + 1 = m * q + (q + 1) by ring, show s.nSteps + 1 = (q + 1) + (s.nSteps - q) by omega, Finset.prod_range_add _ (m * q) (q + 1), Finset.prod_range_add _ (q + 1) (s.nSteps - q)]
        have t1 : ∏ x ∈ Finset.range (s.nSteps - q), g (q + 1 + x) (Y (q + 1 + x) ω) = 1 := Finset.prod_eq_one fun x _ => by simp only [hg]; rw [if_neg (by omega)]
        rw [t1, mul_one]
        refine congrArg₂ (· * ·) (Finset.prod_congr rfl fun j hj => ?_) (Finset.prod_congr rfl fun j hj => ?_)
        · rw [if_pos (Finset.mem_range.1 hj).le]
        · have hj := Finset.mem_range.1 hj
          simp only [hg]
          rw [if_pos (by omega)]
          rcases Nat.eq_zero_or_pos j with rfl | h0
          · rw [if_pos (by omega), hY0 ω]; rfl
          · rw [if_neg (by omega), show m * q + j - m * q = j by omega]
      simp only [e2] at e1
      rw [e1, show (m + 1) * q = m * q + q by ring, pathWeight_append (m * q) q]
      have hgm2 : ∀ j, Measurable ((fun j x => if j = m * q then pathWeight ν step q (fun i => f (m * q + i)) x else f j x : ℕ → Pos ℝ d → ℝ≥0∞) j) := fun j => by
        by_cases hj : j = m * q
        · simp only [hj, if_true]; exact pathWeight_measurable hsm _ _ fun i => hf _
        · simp only [hj, if_false]; exact hf j
      rw [← hZl _ hgm2]
      refine lintegral_congr fun ω => ?_
      rw [Finset.prod_range_succ, if_pos rfl]
      exact congrArg (· * _) (Finset.prod_congr rfl fun j hj => by rw [if_neg (by have := Finset.mem_range.1 hj; omega)])
    · rcases Nat.lt_or_ge p m with hp' | hp'
      · have hle : p * q + (j * s.thinning + 1) ≤ m * q := by
          have h1 : j * s.thinning ≤ lastRow s := by
            unfold lastRow; rw [hceil]; exact Nat.mul_le_mul_right _ (by omega)
          have h2 : (p + 1) * q ≤ m * q := Nat.mul_le_mul_right _ hp'
          rw [Nat.add_mul] at h2
          omega
        have h3 : p * C + j < m * C := by
          have h2 : (p + 1) * C ≤ m * C := Nat.mul_le_mul_right _ hp'
          rw [Nat.add_mul] at h2
          omega
        beta_reduce
        rw [if_pos hle, hout ω i _ a (List.getElem?_eq_some_iff.1 (hX' ω)).1 (by rw [hcur']; omega)]
        exact hcells ω p hp' j hj a
      · obtain rfl : p = m := by omega
        beta_reduce
        rw [if_neg (show ¬ p * q + (j * s.thinning + 1) ≤ p * q by omega), show p * q + (j * s.thinning + 1) - p * q = j * s.thinning + 1 by omega, ← add_assoc, ← hcur' ω]
        exact hcell ω j (by rw [hceil]; exact hj) _ (hYr _ (lt_of_lt_ceil ht hn (by rw [hceil]; exact hj)) ω) a

omit [BufNum ℝ] in
theorem lastRow_dvd (s : TakeSteps) (hn : 0 < s.nSteps) (hdvd : s.thinning ∣ s.nSteps) : lastRow s + 1 = s.nSteps - s.thinning + 1 := by
  obtain ⟨c, hc⟩ := hdvd
  rcases Nat.eq_zero_or_pos s.thinning with h0 | h0
  · rw [h0] at hc; omega
  · unfold lastRow ceilDiv'
    rw [hc, show s.thinning * c + s.thinning - 1 = (s.thinning - 1) + s.thinning * c by omega, Nat.add_mul_div_left _ _ h0, Nat.div_eq_of_lt (by omega), Nat.sub_mul, Nat.zero_add, Nat.one_mul,
      Nat.mul_comm c]

section
variable (k : Key) (h : IdealOn (Desc k) past sig P env) (r0 : String → Option (Resource ℝ D d M O)) (data : Data D) (μ : Measure (Pos ℝ d)) [IsProbabilityMeasure μ]
    (s : TakeSteps) (hstep : ExactStepper (Desc k) P sig env r0 data μ s) (hn : 0 < s.nSteps) (hdvd : s.thinning ∣ s.nSteps) (i : ℕ) (X X' : Ω → Pos ℝ d) (hXm : Measurable[past] X)
    (hXm' : Measurable[past] X') (hXX : P.map X = P.map X') (m : ℕ) (hm : 0 < m)
    -- `m` calls, beginning in `w 0`
    (w : ℕ → Ω → World ℝ D d M O) (hkey : ∀ ω, (w 0 ω).key = k) (hres : ∀ ω, KeepsSamplers r0 (w 0 ω).heap) (hX : ∀ ω, (w 0 ω).xs[i]? = some (X ω)) (n cap cur : ℕ) (hw : ∀ ω, (w 0 ω).xs.length = n)
    (Pn L A : String) (bP bL bA : Ω → Buffer ℝ) (hpt : ∀ ω, PointsAt (w 0 ω).heap s Pn L A) (hrec : ∀ ω, Recorders (w 0 ω).heap n cap Pn L A (bP ω) (bL ω) (bA ω))
    (hcur : ∀ ω, (w 0 ω).heap.pos s.ident = cur) (hfit : cur + m * (s.nSteps / s.thinning) ≤ cap)
    (hcall : ∀ p < m, ∀ ω, s.run (env ω) (w p ω).key (w p ω).xs data (w p ω).heap = (.ok ((w (p + 1) ω).key, (w (p + 1) ω).xs), (w (p + 1) ω).heap))
    -- one long call, beginning in `v` and ending in `v'`
    (v v' : Ω → World ℝ D d M O) (vkey : ∀ ω, (v ω).key = k) (vres : ∀ ω, KeepsSamplers r0 (v ω).heap) (vX : ∀ ω, (v ω).xs[i]? = some (X' ω)) (n' cap' cur' : ℕ) (vw : ∀ ω, (v ω).xs.length = n')
    (Pn' L' A' : String) (bP' bL' bA' : Ω → Buffer ℝ) (vpt : ∀ ω, PointsAt (v ω).heap s Pn' L' A') (vrec : ∀ ω, Recorders (v ω).heap n' cap' Pn' L' A' (bP' ω) (bL' ω) (bA' ω))
    (vcur : ∀ ω, (v ω).heap.pos s.ident = cur')
include h hstep hn hdvd hXm hXm' hXX hm hkey hres hX hw hpt hrec hcur hfit hcall vkey vres vX vw vpt vrec vcur

/-- **C119.** A stepper with `n` steps and thinning `t` (`t` divides `n`) is called `m` times.  The `m * (n / t)` rows that it records for chain `i` are distributed as certain rows of one call without thinning and
with `m * (n - t + 1)` steps, from an equally distributed start: the `j`-th row of the `p`-th call as the row of step `p * (n - t + 1) + j * t`.  So `t` steps lie between two rows of the same call, but only one
between the last row of a call and the first one of the next. -/
theorem C119_thinned (vfit : cur' + m * (s.nSteps - s.thinning + 1) ≤ cap')
    (vcall : ∀ ω, ({ s with nSteps := m * (s.nSteps - s.thinning + 1), thinning := 1 } : TakeSteps).run (env ω) (v ω).key (v ω).xs data (v ω).heap = (.ok ((v' ω).key, (v' ω).xs), (v' ω).heap)) :
    ∃ b b' : Ω → Buffer ℝ, (∀ ω, (w m ω).heap.res Pn = some (.buffer (b ω))) ∧ (∀ ω, (v' ω).heap.res Pn' = some (.buffer (b' ω))) ∧
      Measurable (fun ω (r : Fin (m * (s.nSteps / s.thinning))) (a : Fin d) => (b ω).data.get [i, cur + r, a]) ∧
      P.map (fun ω (r : Fin (m * (s.nSteps / s.thinning))) (a : Fin d) => (b ω).data.get [i, cur + r, a]) =
        P.map (fun ω (r : Fin (m * (s.nSteps / s.thinning))) (a : Fin d) =>
          (b' ω).data.get [i, cur' + (r / (s.nSteps / s.thinning) * (s.nSteps - s.thinning + 1) + r % (s.nSteps / s.thinning) * s.thinning), a]) := by
  obtain ⟨ν, hν, step, hsm, -, -, hpaths⟩ := exactStepper_paths h hstep
  have hq := lastRow_dvd s hn hdvd
  set q := s.nSteps - s.thinning + 1 with hqd
  set C := s.nSteps / s.thinning with hC
  set N := m * q with hN
  obtain ⟨_, _, Z, b, bL1, bA1, -, -, -, -, -, -, hZm, hZl, -, hrec1, -, hcells⟩ := calls_path k h r0 data s hn hdvd hsm (hpaths s.nSteps s.thinning) i X hXm n cap cur Pn L A bP bL bA w hkey hres hX hw hpt
    hrec hcur m hfit hcall
  have hN0 : 0 < N := Nat.mul_pos hm (by omega)
  obtain ⟨_, _, Z', b', bL2, bA2, -, -, -, -, -, -, hZm', hZl', -, hrec2, -, hcells'⟩ := calls_path k h r0 data { s with nSteps := N, thinning := 1 } hN0 (one_dvd _) hsm (hpaths N 1) i X' hXm' n' cap' cur' Pn' L' A'
    bP' bL' bA' (fun p => if p = 0 then v else v') vkey vres vX vw vpt vrec vcur 1 (by simp only [Nat.div_one]; omega) (fun p hp ω => by have e : p = 0 := (by omega); subst e; exact vcall ω)
  have hq' : 1 * (lastRow { s with nSteps := N, thinning := 1 } + 1) = N := by
    rw [lastRow_dvd _ hN0 (one_dvd _)]; show 1 * (N - 1 + 1) = N; omega
  rw [hq'] at hZm' hZl'
  rw [hq] at hZm hZl hcells
  have hp1 : IsPath P ν step (P.map X) N Z := ⟨fun j hj => (hZm j hj).mono (h.info_le _) le_rfl, hZl⟩
  have hp2 : IsPath P ν step (P.map X) N Z' := ⟨fun j hj => (hZm' j hj).mono (h.info_le _) le_rfl, by rw [hXX]; exact hZl'⟩
  have ht : 0 < s.thinning := by
    rcases Nat.eq_zero_or_pos s.thinning with h0 | h0
    · rw [h0] at hdvd; have := Nat.eq_zero_of_zero_dvd hdvd; omega
    · exact h0
  have hC0 : 0 < C := Nat.div_pos (Nat.le_of_dvd hn hdvd) ht
  have hCt : C * s.thinning = s.nSteps := Nat.div_mul_cancel hdvd
  have htime : ∀ r < m * C, r / C * q + (r % C * s.thinning + 1) ≤ N := by
    intro r hr
    have h1 : r / C < m := Nat.div_lt_of_lt_mul (by rw [Nat.mul_comm]; exact hr)
    have h2 : r % C < C := Nat.mod_lt _ hC0
    have h3 : (r % C + 1) * s.thinning ≤ C * s.thinning := Nat.mul_le_mul_right _ h2
    have h4 : (r / C + 1) * q ≤ m * q := Nat.mul_le_mul_right _ h1
    rw [Nat.add_mul] at h3 h4
    omega
  have e1 : (fun ω (r : Fin (m * C)) (a : Fin d) => (b ω).data.get [i, cur + r, a]) = fun ω (r : Fin (m * C)) => Z ((r : ℕ) / C * q + (r % C * s.thinning + 1)) ω := by
    funext ω r a
    have := hcells ω (r / C) (Nat.div_lt_of_lt_mul ((Nat.mul_comm m C) ▸ r.2)) (r % C) (Nat.mod_lt _ hC0) a
    rwa [show (r : ℕ) / C * C + r % C = r by rw [Nat.mul_comm]; exact Nat.div_add_mod _ _] at this
  have e2 : (fun ω (r : Fin (m * C)) (a : Fin d) => (b' ω).data.get [i, cur' + (r / C * q + r % C * s.thinning), a]) = fun ω (r : Fin (m * C)) => Z' ((r : ℕ) / C * q + (r % C * s.thinning + 1)) ω := by
    funext ω r a
    have hr := htime r r.2
    have := hcells' ω 0 (by omega) ((r : ℕ) / C * q + r % C * s.thinning) (by simp only [Nat.div_one]; omega) a
    simp only [Nat.zero_mul, Nat.zero_add, Nat.mul_one] at this
    rw [this, ← add_assoc]
  refine ⟨b, b', fun ω => (hrec1 ω).resP, fun ω => (hrec2 ω).resP, ?_, ?_⟩
  · rw [e1]
    exact measurable_pi_lambda _ fun r => hp1.meas _ (htime r r.2)
  · rw [e1, e2]
    have hpick : Measurable fun (z : Fin (N + 1) → Pos ℝ d) (r : Fin (m * C)) => z ⟨(r : ℕ) / C * q + (r % C * s.thinning + 1), by have := htime r r.2; omega⟩ :=
      measurable_pi_lambda _ fun r => measurable_pi_apply _
    have := congrArg (Measure.map fun (z : Fin (N + 1) → Pos ℝ d) (r : Fin (m * C)) => z ⟨(r : ℕ) / C * q + (r % C * s.thinning + 1), by have := htime r r.2; omega⟩) (hp1.same_law hp2)
    rw [Measure.map_map hpick (measurable_pi_lambda _ fun j => hp1.meas _ (by omega)), Measure.map_map hpick (measurable_pi_lambda _ fun j => hp2.meas _ (by omega))] at this
    exact this

/-- **C119 (without thinning).** `m` calls of a stepper with `n` steps and without thinning record, for each chain, rows with the same joint distribution as one call with `m * n` steps from an equally
distributed start. -/
theorem C119_split (ht : s.thinning = 1) (vfit : cur' + m * s.nSteps ≤ cap')
    (vcall : ∀ ω, ({ s with nSteps := m * s.nSteps } : TakeSteps).run (env ω) (v ω).key (v ω).xs data (v ω).heap = (.ok ((v' ω).key, (v' ω).xs), (v' ω).heap)) :
    ∃ b b' : Ω → Buffer ℝ, (∀ ω, (w m ω).heap.res Pn = some (.buffer (b ω))) ∧ (∀ ω, (v' ω).heap.res Pn' = some (.buffer (b' ω))) ∧
      Measurable (fun ω (r : Fin (m * s.nSteps)) (a : Fin d) => (b ω).data.get [i, cur + r, a]) ∧
      P.map (fun ω (r : Fin (m * s.nSteps)) (a : Fin d) => (b ω).data.get [i, cur + r, a]) =
        P.map (fun ω (r : Fin (m * s.nSteps)) (a : Fin d) => (b' ω).data.get [i, cur' + r, a]) := by
  obtain ⟨kind, ident, l, kn, st, bn, nS, th, cb⟩ := s
  simp only at ht
  subst ht
  have hq : nS - 1 + 1 = nS := Nat.sub_add_cancel hn
  have key := C119_thinned k h r0 data μ _ hstep hn hdvd i X X' hXm hXm' hXX m hm w hkey hres hX n cap cur hw Pn L A bP bL bA hpt hrec hcur hfit hcall v v' vkey vres vX n' cap' cur' vw Pn' L' A' bP' bL' bA' vpt
    vrec vcur (by simp only [hq]; exact vfit) (by simp only [hq]; exact vcall)
  have e : ∀ r : ℕ, r / nS * nS + r % nS = r := fun r => by rw [Nat.mul_comm]; exact Nat.div_add_mod _ _
  have gen : ∀ c, c = nS → (∃ b b' : Ω → Buffer ℝ, (∀ ω, (w m ω).heap.res Pn = some (.buffer (b ω))) ∧ (∀ ω, (v' ω).heap.res Pn' = some (.buffer (b' ω))) ∧
      Measurable (fun ω (r : Fin (m * c)) (a : Fin d) => (b ω).data.get [i, cur + r, a]) ∧
      P.map (fun ω (r : Fin (m * c)) (a : Fin d) => (b ω).data.get [i, cur + r, a]) =
        P.map (fun ω (r : Fin (m * c)) (a : Fin d) => (b' ω).data.get [i, cur' + (r / c * (nS - 1 + 1) + r % c * 1), a])) →
      ∃ b b' : Ω → Buffer ℝ, (∀ ω, (w m ω).heap.res Pn = some (.buffer (b ω))) ∧ (∀ ω, (v' ω).heap.res Pn' = some (.buffer (b' ω))) ∧
      Measurable (fun ω (r : Fin (m * nS)) (a : Fin d) => (b ω).data.get [i, cur + r, a]) ∧
      P.map (fun ω (r : Fin (m * nS)) (a : Fin d) => (b ω).data.get [i, cur + r, a]) = P.map (fun ω (r : Fin (m * nS)) (a : Fin d) => (b' ω).data.get [i, cur' + r, a]) := by
    rintro c rfl ⟨b, b', h1, h2, h3, h4⟩
    refine ⟨b, b', h1, h2, h3, ?_⟩
    simp only [hq, Nat.mul_one, e] at h4
    exact h4
  exact gen _ (Nat.div_one _) key

end

end FlowMC
