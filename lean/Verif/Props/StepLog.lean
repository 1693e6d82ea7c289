import Verif.Props.StepCall
import Mathlib.Tactic.Ring
/-
C02 for repeated calls of a step strategy: the buffers become the concatenation of the recorded blocks of the calls.
-/
set_option linter.unusedSectionVars false
namespace FlowMC
open Spec

variable {F D : Type} {d : Nat} {M O : Type}
variable [Zero F] [One F] [Add F] [Mul F] [Div F] [Sub F] [Neg F] [NatCast F] [Transc F] [FCmp F] [BufNum F]

/-- The key handed on after `c` calls. -/
def Spec.keyAfter (k : Key) : Nat → Key
  | 0 => k
  | c + 1 => .child (Spec.keyAfter k c) 0

/-- The buffers `bP`, `bL`, `bA` after `c` calls: block number `a` of `m` rows holds for chain `i` the rows `a·m`, … taken from what the sampler `f` returned in call `a`; everything
outside the `c` blocks is as in the buffers at the beginning. -/
structure Spec.Logged (s : TakeSteps) (f : Key → Pos F d → Except Err (List (StepOut F d))) (k : Key) (xs : Nat → List (Pos F d)) (n T start m : Nat) (bP bL bA bP' bL' bA' : Buffer F) (c : Nat) : Prop where
  block : ∀ a < c, ∀ i < n, ∃ x r, (xs a)[i]? = some x ∧ f (.child (.child (keyAfter k a) 1) i) x = .ok r ∧ r.length = s.nSteps ∧ ∀ j < m, ∃ o, r[j * s.thinning]? = some o ∧
    (∀ e : Fin d, bP'.data.get [i, start + a * m + j, e] = o.pos e) ∧ bL'.data.get [i, start + a * m + j] = o.logp ∧ bA'.data.get [i, start + a * m + j] = BufNum.ofBool o.acc
  rest : ∀ i < n, ∀ j < T, ¬ (start ≤ j ∧ j < start + c * m) →
    (∀ e : Fin d, bP'.data.get [i, j, e] = bP.data.get [i, j, e]) ∧ bL'.data.get [i, j] = bL.data.get [i, j] ∧ bA'.data.get [i, j] = bA.data.get [i, j]

/-- **C02 (step calls).** A step strategy called `N` times in a row, pointed at three buffers with room for all `N` blocks, with a thinning that divides the step count and a sampler that never fails:
all calls succeed, each handing its key and positions to the next; afterwards the buffers hold the blocks of recorded rows of the calls one after the other from the cursor on, all other rows are as
before, and the cursor is at the end of the last block. -/
theorem C02_calls (env : Env F D d M O) (s : TakeSteps) (k : Key) (xs₀ : List (Pos F d)) (data : Data D)
    (h₀ : Heap F D d M O) (T : Nat) (P L A : String) (bP bL bA : Buffer F) (hpt : PointsAt h₀ s P L A)
    (hr : Recorders h₀ xs₀.length T P L A bP bL bA)
    (kr lr : Resource F D d M O) (hk : h₀.res s.kernelName = some kr) (hl : h₀.res s.logpdfName = some lr) (hkb : ∀ b, kr ≠ .buffer b) (hlb : ∀ b, lr ≠ .buffer b)
    (f : Key → Pos F d → Except Err (List (StepOut F d))) (hf : s.sampler env kr lr data = .ok f) (hok : ∀ a x, ∃ r, f a x = .ok r ∧ r.length = s.nSteps)
    (ht : 0 < s.thinning) (hn : 0 < s.nSteps) (hdvd : s.thinning ∣ s.nSteps) (N : Nat) (hfit : h₀.pos s.ident + N * (s.nSteps / s.thinning) ≤ T) :
    ∃ (xs : Nat → List (Pos F d)) (h : Nat → Heap F D d M O), xs 0 = xs₀ ∧ h 0 = h₀ ∧
      (∀ a < N, s.run env (keyAfter k a) (xs a) data (h a) = (.ok (keyAfter k (a + 1), xs (a + 1)), h (a + 1))) ∧
      (h N).pos s.ident = h₀.pos s.ident + N * (s.nSteps / s.thinning) ∧
      ∃ bP' bL' bA', (h N).res P = some (.buffer bP') ∧ (h N).res L = some (.buffer bL') ∧ (h N).res A = some (.buffer bA') ∧
        Logged s f k xs xs₀.length T (h₀.pos s.ident) (s.nSteps / s.thinning) bP bL bA bP' bL' bA' N := by
  have hm : ceilDiv' s.nSteps s.thinning = s.nSteps / s.thinning := ceilDiv'_dvd _ _ ht hdvd
  set n := xs₀.length with hn0
  set m := s.nSteps / s.thinning with hmd
  set start := h₀.pos s.ident with hst
  let next : Nat → List (Pos F d) × Heap F D d M O → List (Pos F d) × Heap F D d M O := fun a w =>
    match s.run env (keyAfter k a) w.1 data w.2 with
    | (.ok (_, ys), h') => (ys, h')
    | (.error _, h') => (w.1, h')
  let st : Nat → List (Pos F d) × Heap F D d M O := fun a => Nat.rec (xs₀, h₀) (fun a w => next a w) a
  have hst1 : ∀ a, st (a + 1) = next a (st a) := fun a => rfl
  -- one call
  have call : ∀ a, a < N → (st a).1.length = n → PointsAt (st a).2 s P L A → ∀ bP' bL' bA', Recorders (st a).2 n T P L A bP' bL' bA' →
      (st a).2.pos s.ident = start + a * m → (st a).2.res s.kernelName = some kr → (st a).2.res s.logpdfName = some lr →
      ∃ rows : List (List (StepOut F d)), s.run env (keyAfter k a) (st a).1 data (st a).2 = (.ok (keyAfter k (a + 1), (st (a + 1)).1), (st (a + 1)).2) ∧ (st (a + 1)).1.length = n ∧
        StepEffect s (st a).2 (st (a + 1)).2 n T P L A bP' bL' bA' (rows.map (everyNth s.thinning)) ∧
        ∀ i < n, ∃ x r, (st a).1[i]? = some x ∧ f (.child (.child (keyAfter k a) 1) i) x = .ok r ∧ r.length = s.nSteps ∧ rows[i]? = some r := by
    intro a ha hx hp bP' bL' bA' hrec hpos hk' hl'
    choose g hg1 hg2 using hok
    have hrows : List.Forall₂ (fun p r => f p.1 p.2 = .ok r) ((splitN (Key.child (keyAfter k a) 1) (st a).1.length).zip (st a).1)
        (((splitN (Key.child (keyAfter k a) 1) (st a).1.length).zip (st a).1).map fun p => g p.1 p.2) := by
      rw [List.forall₂_map_right_iff]
      exact List.forall₂_same.2 fun p _ => hg1 p.1 p.2
    rw [← hx] at hrec
    have hle : (a + 1) * m ≤ N * m := Nat.mul_le_mul_right _ ha
    rw [Nat.add_mul, Nat.one_mul] at hle
    obtain ⟨ys, h', e1, e2, e3, -⟩ := C19_success env s (keyAfter k a) (st a).1 data (st a).2 T P L A bP' bL' bA' hp hrec (by rw [hpos, hm]; omega) kr lr hk' hl' f hf _ hrows
      (by intro r hr; obtain ⟨p, -, rfl⟩ := List.mem_map.1 hr; exact hg2 _ _) ht hn
    have hs' : st (a + 1) = (ys, h') := by rw [hst1]; simp only [next, e1]
    refine ⟨_, by rw [e1, hs']; rfl, by rw [hs', e3, hx], by rw [hs', ← hx]; exact e2, ?_⟩
    intro i hi
    rw [← hx] at hi
    refine ⟨(st a).1[i], g (.child (.child (keyAfter k a) 1) i) (st a).1[i], by simp, hg1 _ _, hg2 _ _, ?_⟩
    rw [List.getElem?_map, List.getElem?_eq_getElem (by simpa [splitN] using hi)]
    simp [splitN]
  have inv : ∀ c, c ≤ N → (st c).1.length = n ∧ PointsAt (st c).2 s P L A ∧ (st c).2.pos s.ident = start + c * m ∧ (st c).2.res s.kernelName = some kr ∧ (st c).2.res s.logpdfName = some lr ∧
      (∀ a < c, s.run env (keyAfter k a) (st a).1 data (st a).2 = (.ok (keyAfter k (a + 1), (st (a + 1)).1), (st (a + 1)).2)) ∧
      ∃ bP' bL' bA', Recorders (st c).2 n T P L A bP' bL' bA' ∧ Logged s f k (fun a => (st a).1) n T start m bP bL bA bP' bL' bA' c := by
    intro c
    induction c with
    | zero =>
      intro _
      refine ⟨rfl, hpt, by simp [st, hst], hk, hl, by simp, bP, bL, bA, hr, ⟨by simp, fun i _ j _ _ => ⟨fun _ => rfl, rfl, rfl⟩⟩⟩
    | succ c ih =>
      intro hc
      obtain ⟨i1, i2, i3, i4, i5, i6, bP', bL', bA', hrec, hlog⟩ := ih (by omega)
      obtain ⟨rows, e1, e2, he, hrow⟩ := call c (by omega) i1 i2 bP' bL' bA' hrec i3 i4 i5
      obtain ⟨cP, p1, p2⟩ := he.pos
      obtain ⟨cL, l1, l2⟩ := he.logp
      obtain ⟨cA, a1, a2⟩ := he.acc
      rw [i3, hm] at p2 l2 a2
      have hne : ∀ name r, (st c).2.res name = some r → (∀ b, r ≠ .buffer b) → (st (c + 1)).2.res name = some r := by
        intro name r h1 h2
        rw [he.frame name ?_ ?_ ?_, h1]
        · rintro rfl; rw [hrec.resP] at h1; exact h2 _ (Option.some.inj h1).symm
        · rintro rfl; rw [hrec.resL] at h1; exact h2 _ (Option.some.inj h1).symm
        · rintro rfl; rw [hrec.resA] at h1; exact h2 _ (Option.some.inj h1).symm
      refine ⟨e2, ?_, ?_, hne _ _ i4 hkb, hne _ _ i5 hlb, ?_, cP, cL, cA, ?_, ?_⟩
      · obtain ⟨S', p, l, a, rest, q1, q2, q3⟩ := i2
        exact ⟨S', p, l, a, rest, hne _ _ q1 (by intro b; simp), q2, q3⟩
      · rw [he.cursor, i3, ← hmd]; ring
      · intro a ha
        rcases Nat.lt_succ_iff_lt_or_eq.1 ha with h | rfl
        · exact i6 a h
        · exact e1
      · exact ⟨p1, l1, a1, by rw [p2.same.2.2.2, hrec.shapeP], by rw [l2.same.2.2.2, hrec.shapeL], by rw [a2.same.2.2.2, hrec.shapeA],
          by rw [p2.same.2.2.1, hrec.dimP], by rw [l2.same.2.2.1, hrec.dimL], by rw [a2.same.2.2.1, hrec.dimA], hrec.ne⟩
      · constructor
        · intro a ha i hi
          rcases Nat.lt_succ_iff_lt_or_eq.1 ha with h | rfl
          · obtain ⟨x, r, x1, x2, x3, x4⟩ := hlog.block a h i hi
            refine ⟨x, r, x1, x2, x3, fun j hj => ?_⟩
            obtain ⟨o, o1, o2, o3, o4⟩ := x4 j hj
            have hle : (a + 1) * m ≤ c * m := Nat.mul_le_mul_right _ h
            have hle2 : (c + 1) * m ≤ N * m := Nat.mul_le_mul_right _ hc
            rw [Nat.add_mul, Nat.one_mul] at hle hle2
            have hj' : start + a * m + j < T := by omega
            have hno : ¬ (start + c * m ≤ start + a * m + j ∧ start + a * m + j < start + c * m + m) := by omega
            refine ⟨o, o1, fun e => ?_, ?_, ?_⟩
            · rw [p2.outside i _ e hi hj' hno, o2 e]
            · rw [l2.outside i _ hi hj' hno, o3]
            · rw [a2.outside i _ hi hj' hno, o4]
          · obtain ⟨x, r, x1, x2, x3, x4⟩ := hrow i hi
            refine ⟨x, r, x1, x2, x3, fun j hj => ?_⟩
            have hjt : j * s.thinning < r.length := by rw [x3]; exact lt_of_lt_ceil ht hn (by rw [hm]; exact hj)
            have hcell : cellOf (rows.map (everyNth s.thinning)) i j = some r[j * s.thinning] := by
              rw [cell_everyNth _ ht]
              simp [cellOf, x4, hjt]
            refine ⟨r[j * s.thinning], by simp [hjt], fun e => ?_, ?_, ?_⟩
            · exact p2.inside i j _ hi hj (by rw [hcell]; rfl) e
            · exact l2.inside i j _ hi hj (by rw [hcell]; rfl)
            · exact a2.inside i j _ hi hj (by rw [hcell]; rfl)
        · intro i hi j hj hno
          rw [Nat.add_mul, Nat.one_mul] at hno
          obtain ⟨q1, q2, q3⟩ := hlog.rest i hi j hj (by omega)
          have hno' : ¬ (start + c * m ≤ j ∧ j < start + c * m + m) := by omega
          exact ⟨fun e => by rw [p2.outside i j e hi hj hno', q1 e], by rw [l2.outside i j hi hj hno', q2], by rw [a2.outside i j hi hj hno', q3]⟩
  obtain ⟨-, -, i3, -, -, i6, bP', bL', bA', hrec, hlog⟩ := inv N le_rfl
  exact ⟨fun a => (st a).1, fun a => (st a).2, rfl, rfl, i6, i3, bP', bL', bA', hrec.resP, hrec.resL, hrec.resA, hlog⟩

/-- Non-vacuity: in the toy world (2 chains, buffers of 6 rows) the stepper with 4 steps thinned by 2 meets the hypotheses for 3 calls. -/
example : PointsAt (Toy.heap 6) (Toy.stepper 4 2) "P" "L" "A" ∧ (∃ bP bL bA, Recorders (Toy.heap 6) Toy.start.length 6 "P" "L" "A" bP bL bA) ∧
    (∃ kr lr f, (Toy.heap 6).res (Toy.stepper 4 2).kernelName = some kr ∧ (Toy.heap 6).res (Toy.stepper 4 2).logpdfName = some lr ∧ (∀ b, kr ≠ .buffer b) ∧ (∀ b, lr ≠ .buffer b) ∧
      (Toy.stepper 4 2).sampler Toy.env kr lr Toy.data = .ok f ∧ ∀ a x, ∃ r, f a x = .ok r ∧ r.length = (Toy.stepper 4 2).nSteps) ∧
    (Toy.stepper 4 2).thinning ∣ (Toy.stepper 4 2).nSteps ∧ (Toy.heap 6).pos (Toy.stepper 4 2).ident + 3 * ((Toy.stepper 4 2).nSteps / (Toy.stepper 4 2).thinning) ≤ 6 := by
  refine ⟨⟨_, "p", "l", "a", [], rfl, rfl, rfl, rfl, rfl⟩, ⟨_, _, _, ⟨rfl, rfl, rfl, rfl, rfl, rfl, rfl, rfl, rfl, by decide⟩⟩, ⟨_, _, _, rfl, rfl, by intro b; simp, by intro b; simp, rfl, ?_⟩, by decide, by decide⟩
  intro a x
  exact ⟨_, rfl, serialSample_length _ _ _ _ _ _⟩

end FlowMC
