import Verif.Lemmas.Basic
import Verif.Lemmas.NDArr
import Verif.Spec.StepCall
set_option linter.unusedSectionVars false
namespace FlowMC
open Spec

variable {F D : Type} {d : Nat} {M O : Type}

/-! ### buffer updates on the heap -/

theorem Heap.getBuffer_of {h : Heap F D d M O} {n : String} {b : Buffer F} (hb : h.res n = some (.buffer b)) :
    h.getBuffer n = .ok b := by simp [Heap.getBuffer, Heap.get, hb]

theorem Heap.updateBuffer_frame (h : Heap F D d M O) (name : String) (upd : NDArr F) (start : Int) :
    (∀ n, n ≠ name → (h.updateBuffer name upd start).2.res n = h.res n) ∧
    (h.updateBuffer name upd start).2.pos = h.pos := by
  unfold Heap.updateBuffer
  split
  · simp
  · split
    · simp
    · refine ⟨fun n hn => ?_, rfl⟩
      simp [Heap.setRes, dictSet, hn]

theorem update3 (h : Heap F D d M O) (name : String) (b : Buffer F) (hb : h.res name = some (.buffer b)) (n T : Nat)
    (hshape : b.data.shape = [n, T, d]) (hdim : b.cursorDim = 1) (junk : F) (m c : Nat) (rows : List (List (Fin d → F)))
    (hfit : c + m ≤ T) :
    ∃ b', h.updateBuffer name (arr3 junk n m rows) (c : Nat) = (.ok (), h.setRes name (.buffer b')) ∧
      Recorded3 b b' n T c m (cellOf rows) := by
  obtain ⟨r, h1, h2, h3⟩ := dynUpdate_slab b.data (arr3 junk n m rows) c 1 m (by simp [hshape])
    (by simp [hshape, arr3]) (by simp [hshape]; omega)
  rw [hshape] at h2 h3
  have hc : clampStart (c : Int) T m = c := clampStart_fits c T m hfit
  simp only [List.getD_cons_succ, List.getD_cons_zero, hc] at h3
  refine ⟨{ b with data := r }, ?_, ⟨⟨rfl, rfl, rfl, by simp [h2, hshape]⟩, ?_, ?_⟩⟩
  · simp [Heap.updateBuffer, Heap.getBuffer_of hb, Buffer.updateBuffer, hdim, h1]
  · intro i j v hi hj hv k
    have := h3 [i, c + j, k.val] (by simp [InBounds]; omega)
    simp only [List.getD_cons_succ, List.getD_cons_zero] at this
    rw [this, if_pos (by omega)]
    simp only [List.set_cons_succ, List.set_cons_zero, Nat.add_sub_cancel_left, arr3, k.isLt, dif_pos]
    unfold cellOf at hv
    rw [hv]; rfl
  · intro i j k hi hj hw
    have := h3 [i, j, k.val] (by simp [InBounds]; omega)
    simp only [List.getD_cons_succ, List.getD_cons_zero] at this
    rw [this, if_neg hw]

theorem update2 (h : Heap F D d M O) (name : String) (b : Buffer F) (hb : h.res name = some (.buffer b)) (n T : Nat)
    (hshape : b.data.shape = [n, T]) (hdim : b.cursorDim = 1) (junk : F) (m c : Nat) (rows : List (List F))
    (hfit : c + m ≤ T) :
    ∃ b', h.updateBuffer name (arr2 junk n m rows) (c : Nat) = (.ok (), h.setRes name (.buffer b')) ∧
      Recorded2 b b' n T c m (cellOf rows) := by
  obtain ⟨r, h1, h2, h3⟩ := dynUpdate_slab b.data (arr2 junk n m rows) c 1 m (by simp [hshape])
    (by simp [hshape, arr2]) (by simp [hshape]; omega)
  rw [hshape] at h2 h3
  have hc : clampStart (c : Int) T m = c := clampStart_fits c T m hfit
  simp only [List.getD_cons_succ, List.getD_cons_zero, hc] at h3
  refine ⟨{ b with data := r }, ?_, ⟨⟨rfl, rfl, rfl, by simp [h2, hshape]⟩, ?_, ?_⟩⟩
  · simp [Heap.updateBuffer, Heap.getBuffer_of hb, Buffer.updateBuffer, hdim, h1]
  · intro i j v hi hj hv
    have := h3 [i, c + j] (by simp [InBounds]; omega)
    simp only [List.getD_cons_succ, List.getD_cons_zero] at this
    rw [this, if_pos (by omega)]
    simp only [List.set_cons_succ, List.set_cons_zero, Nat.add_sub_cancel_left, arr2]
    unfold cellOf at hv
    rw [hv]; rfl
  · intro i j hi hj hw
    have := h3 [i, j] (by simp [InBounds]; omega)
    simp only [List.getD_cons_succ, List.getD_cons_zero] at this
    rw [this, if_neg hw]

theorem cellOf_map {α β : Type} (g : α → β) (rows : List (List α)) (i j : Nat) :
    cellOf (rows.map (fun r => r.map g)) i j = (cellOf rows i j).map g := by
  unfold cellOf
  rw [List.getElem?_map]
  cases rows[i]? <;> simp

variable [Zero F] [One F] [Add F] [Mul F] [Div F] [Sub F] [Neg F] [NatCast F] [Transc F] [FCmp F]

theorem runChains_eq {β : Type} (f : Key → Pos F d → Except Err β) (b : Nat) (keys : List Key) (xs : List (Pos F d)) :
    runChains f b keys xs = mapE (fun a => f a.1 a.2) (keys.zip xs) := by
  unfold runChains
  dsimp only
  split
  · rename_i h
    exact batchedMapE_eq _ b (by omega) _ _ (by simp; omega)
  · rfl

theorem plan_eq (env : Env F D d M O) (s : TakeSteps) (k : Key) (xs : List (Pos F d)) (data : Data D)
    (h : Heap F D d M O) (P L A : String) (bP bL bA : Buffer F) (hpt : PointsAt h s P L A)
    (hP : h.res P = some (.buffer bP)) (hL : h.res L = some (.buffer bL)) (hA : h.res A = some (.buffer bA))
    (kr lr : Resource F D d M O) (hk : h.res s.kernelName = some kr) (hl : h.res s.logpdfName = some lr)
    (f : Key → Pos F d → Except Err (List (StepOut F d))) (hf : s.sampler env kr lr data = .ok f) :
    s.plan env k xs data h =
      match mapE (fun a => f a.1 a.2) ((splitN (Key.child k 1) xs.length).zip xs) with
      | .error e => .error e
      | .ok rows => if s.thinning = 0 then .error .valueError else
          .ok { posName := P, lpName := L, accName := A, outKey := Key.child k 0, rows := rows.map (everyNth s.thinning) } := by
  obtain ⟨st, p, l, a, rest, hst, hn, h1, h2, h3⟩ := hpt
  have e0 : bufferTarget st s.bufferNames 0 = .ok P := by simp [bufferTarget, hn, h1]
  have e1 : bufferTarget st s.bufferNames 1 = .ok L := by simp [bufferTarget, hn, h2]
  have e2 : bufferTarget st s.bufferNames 2 = .ok A := by simp [bufferTarget, hn, h3]
  have es : h.getState s.stateName = .ok st := by simp [Heap.getState, Heap.get, hst]
  have ek : h.get s.kernelName = .ok kr := by simp [Heap.get, hk]
  have el : h.get s.logpdfName = .ok lr := by simp [Heap.get, hl]
  simp only [TakeSteps.plan, es, e0, e1, e2, Heap.getBuffer_of hP, Heap.getBuffer_of hL, Heap.getBuffer_of hA, ek, el, hf,
    runChains_eq, bind, Except.bind, split]
  cases mapE (fun a => f a.1 a.2) ((splitN (Key.child k 1) xs.length).zip xs) with
  | error e => rfl
  | ok rows => rfl

variable [BufNum F]

theorem commit_effect (s : TakeSteps) (n T : Nat) (p : StepPlan F d) (h : Heap F D d M O) (bP bL bA : Buffer F)
    (hr : Recorders h n T p.posName p.lpName p.accName bP bL bA)
    (hfit : h.pos s.ident + s.nRows ≤ T) :
    ∃ h', s.commit n p h = ((lastRows p.rows).map (fun xs => (p.outKey, xs)), h') ∧
      StepEffect s h h' n T p.posName p.lpName p.accName bP bL bA p.rows := by
  obtain ⟨n1, n2, n3⟩ := hr.ne
  obtain ⟨bP', u1, r1⟩ := update3 h p.posName bP hr.resP n T hr.shapeP hr.dimP BufNum.negInf s.nRows (h.pos s.ident)
    (p.rows.map (fun r => r.map (·.pos))) hfit
  obtain ⟨bL', u2, r2⟩ := update2 (h.setRes p.posName (.buffer bP')) p.lpName bL
    (by simp [Heap.setRes, dictSet, n1.symm, hr.resL]) n T hr.shapeL hr.dimL BufNum.negInf s.nRows (h.pos s.ident)
    (p.rows.map (fun r => r.map (·.logp))) hfit
  obtain ⟨bA', u3, r3⟩ := update2 ((h.setRes p.posName (.buffer bP')).setRes p.lpName (.buffer bL')) p.accName bA
    (by simp [Heap.setRes, dictSet, n2.symm, n3.symm, hr.resA]) n T hr.shapeA hr.dimA BufNum.negInf s.nRows (h.pos s.ident)
    (p.rows.map (fun r => r.map (fun o => BufNum.ofBool o.acc))) hfit
  have c1 : cellOf (p.rows.map (fun r => r.map (·.pos))) = fun i j => (cellOf p.rows i j).map (·.pos) := by
    funext i j; exact cellOf_map _ _ _ _
  have c2 : cellOf (p.rows.map (fun r => r.map (·.logp))) = fun i j => (cellOf p.rows i j).map (·.logp) := by
    funext i j; exact cellOf_map _ _ _ _
  have c3 : cellOf (p.rows.map (fun r => r.map (fun o => (BufNum.ofBool o.acc : F)))) =
      fun i j => (cellOf p.rows i j).map (fun o => BufNum.ofBool o.acc) := by
    funext i j; exact cellOf_map _ _ _ _
  rw [c1] at r1; rw [c2] at r2; rw [c3] at r3
  refine ⟨(((h.setRes p.posName (.buffer bP')).setRes p.lpName (.buffer bL')).setRes p.accName (.buffer bA')).setPos s.ident
    (h.pos s.ident + s.nSteps / s.thinning), ?_, ?_⟩
  · simp only [TakeSteps.commit, posArr, lpArr, accArr, u1, u2, u3]
    cases lastRows p.rows <;> rfl
  · constructor
    · exact ⟨bP', by simp [Heap.setRes, Heap.setPos, dictSet, n1, n2], r1⟩
    · exact ⟨bL', by simp [Heap.setRes, Heap.setPos, dictSet, n3], r2⟩
    · exact ⟨bA', by simp [Heap.setRes, Heap.setPos, dictSet], r3⟩
    · intro name h1 h2 h3
      simp [Heap.setRes, Heap.setPos, dictSet, h1, h2, h3]
    · simp [Heap.setPos]
    · intro id hid
      simp [Heap.setRes, Heap.setPos, hid]

end FlowMC
