import Verif.Spec.Compose
import Verif.Lemmas.BundleFrame
import Verif.Props.Keys
/-
Inversion of a successful stepper call, and which resources the strategies without a chain move can replace.
-/
set_option linter.unusedSectionVars false
namespace FlowMC
open Spec

variable {F D : Type} {d : Nat} {M O : Type}
variable [Zero F] [One F] [Add F] [Mul F] [Div F] [Sub F] [Neg F] [NatCast F] [Transc F] [FCmp F] [BufNum F]

theorem heap_get_ok {h : Heap F D d M O} {n : String} {r : Resource F D d M O} (e : h.get n = .ok r) : h.res n = some r := by
  unfold Heap.get at e
  split at e <;> simp_all

theorem getLast?_everyNth {α : Type} (t : Nat) (ht : 0 < t) (xs : List α) : (everyNth t xs).getLast? = xs[(ceilDiv' xs.length t - 1) * t]? := by
  rw [List.getLast?_eq_getElem?, everyNth_length t ht, everyNth_getElem? t ht]

/-- What a successful stepper call did. -/
theorem takeSteps_ok (env : Env F D d M O) (s : TakeSteps) (k k' : Key) (xs ys : List (Pos F d)) (data : Data D) (h h' : Heap F D d M O)
    (hr : s.run env k xs data h = (.ok (k', ys), h')) :
    0 < s.thinning ∧ k' = .child k 0 ∧ ∃ kr lr f, h.res s.kernelName = some kr ∧ h.res s.logpdfName = some lr ∧ s.sampler env kr lr data = .ok f ∧
      ∀ (i : Nat) x, xs[i]? = some x → ∃ r, f (.child (.child k 1) i) x = .ok r ∧ ys[i]? = (r[(ceilDiv' r.length s.thinning - 1) * s.thinning]?).map (·.pos) := by
  unfold TakeSteps.run at hr
  split at hr
  · simp at hr
  · rename_i p hp
    have hc : k' = p.outKey ∧ lastRows p.rows = .ok ys := by
      clear hp
      unfold TakeSteps.commit at hr
      dsimp only at hr
      generalize lastRows p.rows = z at hr
      cases z with
      | error e =>
        exfalso
        dsimp only at hr
        split at hr <;> [simp at hr; skip]
        split at hr <;> [simp at hr; skip]
        split at hr <;> simp at hr
      | ok zs =>
      dsimp only at hr
      split at hr <;> [(simp at hr; done); skip]
      split at hr <;> [(simp at hr; done); skip]
      split at hr <;> [(simp at hr; done); skip]
      simp only [Prod.mk.injEq, Except.ok.injEq] at hr
      exact ⟨hr.1.1.symm, by rw [hr.1.2]⟩
    obtain ⟨rfl, hl⟩ := hc
    simp only [TakeSteps.plan, bind, Except.bind, runChains_eq] at hp
    repeat' split at hp <;> try (cases hp; done)
    rename_i _ _ _ _ _ _ _ _ _ _ _ _ _ _ kr hkr _ lr hlr _ f hf _ rows hm ht
    simp only [Except.ok.injEq] at hp
    subst hp
    have ht' : 0 < s.thinning := Nat.pos_of_ne_zero ht
    refine ⟨ht', rfl, kr, lr, f, heap_get_ok hkr, heap_get_ok hlr, hf, fun i x hx => ?_⟩
    have h1 := (mapE_ok_iff _ _ _).1 hm
    have h2 := (mapE_ok_iff _ _ _).1 hl
    have hz : ((splitN (split k).2 xs.length).zip xs)[i]? = some (.child (.child k 1) i, x) := by
      rw [zip_splitN_getElem?, hx]; rfl
    have hi : i < ((splitN (split k).2 xs.length).zip xs).length := (List.getElem?_eq_some_iff.1 hz).1
    have hi' : i < rows.length := h1.length_eq ▸ hi
    have e1 := (List.forall₂_iff_get.1 h1).2 i hi hi'
    have e0 : ((splitN (split k).2 xs.length).zip xs).get ⟨i, hi⟩ = (.child (.child k 1) i, x) := (List.getElem?_eq_some_iff.1 hz).2
    rw [e0] at e1
    refine ⟨rows[i], e1, ?_⟩
    have hi2 : i < (rows.map (everyNth s.thinning)).length := by simpa using hi'
    have hi3 : i < ys.length := h2.length_eq ▸ hi2
    have e2 := (List.forall₂_iff_get.1 h2).2 i hi2 hi3
    simp only [List.get_eq_getElem, List.getElem_map, getLast?_everyNth s.thinning ht'] at e2
    rw [List.getElem?_eq_getElem hi3]
    revert e2
    cases rows[i][(ceilDiv' rows[i].length s.thinning - 1) * s.thinning]? with
    | none => simp
    | some o => simp [eq_comm]

/-- The rows all chains sampled in a successful call. -/
theorem takeSteps_rows (env : Env F D d M O) (s : TakeSteps) (k k' : Key) (xs ys : List (Pos F d)) (data : Data D) (h h' : Heap F D d M O)
    (hr : s.run env k xs data h = (.ok (k', ys), h')) :
    0 < s.thinning ∧ ∃ kr lr f rows, h.res s.kernelName = some kr ∧ h.res s.logpdfName = some lr ∧ s.sampler env kr lr data = .ok f ∧
      List.Forall₂ (fun (a : Key × Pos F d) r => f a.1 a.2 = .ok r) ((splitN (.child k 1) xs.length).zip xs) rows := by
  unfold TakeSteps.run at hr
  split at hr
  · simp at hr
  · rename_i p hp
    simp only [TakeSteps.plan, bind, Except.bind, runChains_eq] at hp
    repeat' split at hp <;> try (cases hp; done)
    rename_i _ _ _ _ _ _ _ _ _ _ _ _ _ _ kr hkr _ lr hlr _ f hf _ rows hm ht
    exact ⟨Nat.pos_of_ne_zero ht, kr, lr, f, rows, heap_get_ok hkr, heap_get_ok hlr, hf, (mapE_ok_iff _ _ _).1 hm⟩

/-! ### resources -/

theorem setRes_keeps {r0 : String → Option (Resource F D d M O)} {h : Heap F D d M O} (hk : KeepsSamplers r0 h) (name : String) (r r' : Resource F D d M O)
    (hr : h.res name = some r) (hn : ¬ IsSamplerResource r) : KeepsSamplers r0 (h.setRes name r') := by
  intro n q hq hs
  have := hk n q hq hs
  by_cases e : n = name
  · subst e
    rw [hr, Option.some.injEq] at this
    exact absurd (this ▸ hs) hn
  · simp [Heap.setRes, dictSet, e, this]

theorem updateBuffer_keeps {r0 : String → Option (Resource F D d M O)} {h : Heap F D d M O} (hk : KeepsSamplers r0 h) (name : String) (u : NDArr F) (st : Int) :
    KeepsSamplers r0 (h.updateBuffer name u st).2 := by
  unfold Heap.updateBuffer
  split
  · exact hk
  · rename_i b hb
    split
    · exact hk
    · refine setRes_keeps hk name (.buffer b) _ ?_ (by simp [IsSamplerResource])
      unfold Heap.getBuffer at hb
      split at hb <;> simp only [reduceCtorEq, Except.ok.injEq] at hb
      subst hb
      exact heap_get_ok (by assumption)

theorem takeSteps_keeps {r0 : String → Option (Resource F D d M O)} (env : Env F D d M O) (s : TakeSteps) (k : Key) (xs : List (Pos F d)) (data : Data D) (h : Heap F D d M O)
    (hk : KeepsSamplers r0 h) : KeepsSamplers r0 (s.run env k xs data h).2 := by
  unfold TakeSteps.run
  split
  · exact hk
  · rename_i p _
    unfold TakeSteps.commit
    dsimp only
    have h1 := updateBuffer_keeps hk p.posName (posArr xs.length s.nRows p.rows) (h.pos s.ident : Nat)
    split
    · rename_i e; rw [e] at h1; exact h1
    rename_i e; rw [e] at h1
    have h2 := updateBuffer_keeps h1 p.lpName (lpArr xs.length s.nRows p.rows) (h.pos s.ident : Nat)
    split
    · rename_i e; rw [e] at h2; exact h2
    rename_i e; rw [e] at h2
    have h3 := updateBuffer_keeps h2 p.accName (accArr xs.length s.nRows p.rows) (h.pos s.ident : Nat)
    split
    · rename_i e; rw [e] at h3; exact h3
    rename_i e; rw [e] at h3
    split <;> exact h3

theorem getModel_res {h : Heap F D d M O} {n : String} {m : M} (e : h.getModel n = .ok m) : h.res n = some (.model m) := by
  unfold Heap.getModel at e
  split at e <;> simp only [reduceCtorEq, Except.ok.injEq] at e
  subst e
  exact heap_get_ok (by assumption)

theorem getOptimizer_res {h : Heap F D d M O} {n : String} {o : O} (e : h.getOptimizer n = .ok o) : h.res n = some (.optimizer o) := by
  unfold Heap.getOptimizer at e
  split at e <;> simp only [reduceCtorEq, Except.ok.injEq] at e
  subst e
  exact heap_get_ok (by assumption)

theorem recordLosses_keeps {r0 : String → Option (Resource F D d M O)} {h : Heap F D d M O} (hk : KeepsSamplers r0 h) (name : String) (ls : List F) :
    KeepsSamplers r0 (recordLosses name ls h).2 := by
  unfold recordLosses
  split
  · exact hk
  · split
    · exact hk
    · rename_i b hb
      split
      · exact hk
      · refine setRes_keeps hk name (.buffer b) _ ?_ (by simp [IsSamplerResource])
        unfold Heap.getBuffer at hb
        split at hb <;> simp only [reduceCtorEq, Except.ok.injEq] at hb
        subst hb
        exact heap_get_ok (by assumption)

/-- A resource that is no kernel and no log-density in `h` is none in `r0`; so overwriting it is harmless. -/
theorem setRes_keeps' {r0 : String → Option (Resource F D d M O)} {h : Heap F D d M O} (hk : KeepsSamplers r0 h) (name : String) (r' : Resource F D d M O)
    (hr : ∀ r, r0 name = some r → ¬ IsSamplerResource r) : KeepsSamplers r0 (h.setRes name r') := by
  intro n q hq hs
  by_cases e : n = name
  · subst e; exact absurd hs (hr q hq)
  · simp [Heap.setRes, dictSet, e, hk n q hq hs]

theorem not_sampler {r0 : String → Option (Resource F D d M O)} {h : Heap F D d M O} (hk : KeepsSamplers r0 h) {name : String} {r : Resource F D d M O}
    (hr : h.res name = some r) (hn : ¬ IsSamplerResource r) : ∀ r', r0 name = some r' → ¬ IsSamplerResource r' := by
  intro r' h1 h2
  have := hk name r' h1 h2
  rw [hr, Option.some.injEq] at this
  exact hn (this ▸ h2)

/-- A successful training call hands on the positions, returns a key that depends on the incoming key and the number of epochs only, and replaces no kernel. -/
theorem trainModel_passive {r0 : String → Option (Resource F D d M O)} (env : Env F D d M O) (s : TrainModel) (k k' : Key) (xs xs' : List (Pos F d)) (h h' : Heap F D d M O)
    (hk : KeepsSamplers r0 h) (hr : s.run env k xs h = (.ok (k', xs'), h')) : k' = trainOut k s.nEpochs ∧ xs' = xs ∧ KeepsSamplers r0 h' := by
  unfold TrainModel.run at hr
  split at hr
  · simp at hr
  · rename_i r hp
    have hkey := (trainPlan_agree env env s k h ⟨fun _ _ _ => rfl, fun _ _ => rfl, fun _ _ _ => rfl, fun _ _ _ _ => rfl, fun _ _ _ _ => rfl, rfl, rfl, rfl, rfl⟩).2 r hp
    have h1 := recordLosses_keeps hk s.lossBufferName r.losses
    have hmo : (∃ m, h.res s.modelName = some (.model m)) ∧ ∃ o, h.res s.optimizerName = some (.optimizer o) := by
      simp only [TrainModel.plan, bind, Except.bind] at hp
      split at hp
      · cases hp
      rename_i hm
      split at hp
      · cases hp
      split at hp
      · cases hp
      rename_i ho
      exact ⟨⟨_, getModel_res hm⟩, ⟨_, getOptimizer_res ho⟩⟩
    obtain ⟨⟨m, hm⟩, ⟨o, ho⟩⟩ := hmo
    split at hr
    · simp at hr
    · rename_i e; rw [e] at h1
      simp only [Prod.mk.injEq, Except.ok.injEq] at hr
      obtain ⟨⟨rfl, rfl⟩, rfl⟩ := hr
      refine ⟨hkey, rfl, ?_⟩
      refine setRes_keeps' (setRes_keeps' h1 _ _ ?_) _ _ ?_
      · exact not_sampler hk hm (by simp [IsSamplerResource])
      · exact not_sampler hk ho (by simp [IsSamplerResource])

theorem updateState_passive {r0 : String → Option (Resource F D d M O)} (s : UpdateState) (k k' : Key) (xs xs' : List (Pos F d)) (h h' : Heap F D d M O)
    (hk : KeepsSamplers r0 h) (hr : s.run k xs h = (.ok (k', xs'), h')) : k' = k ∧ xs' = xs ∧ KeepsSamplers r0 h' := by
  unfold UpdateState.run at hr
  split at hr
  · simp at hr
  · rename_i st hst
    simp only [Prod.mk.injEq, Except.ok.injEq] at hr
    obtain ⟨⟨rfl, rfl⟩, rfl⟩ := hr
    refine ⟨rfl, rfl, setRes_keeps hk _ (.state st) _ ?_ (by simp [IsSamplerResource])⟩
    unfold Heap.getState at hst
    split at hst <;> simp only [reduceCtorEq, Except.ok.injEq] at hst
    subst hst
    exact heap_get_ok (by assumption)

/-- The key a strategy that moves nothing returns, as a function of the key it got. -/
def passiveKey : Strategy F D d M O → Key → Key
  | .trainModel s, k => trainOut k s.nEpochs
  | _, k => k

theorem desc_passiveKey (s : Strategy F D d M O) (k : Key) : Desc k (passiveKey s k) := by
  cases s with
  | trainModel s => exact desc_trans (.child 1 (.child 0 .refl)) (desc_carryKey _ _)
  | _ => exact .refl

theorem passive_run {r0 : String → Option (Resource F D d M O)} (env : Env F D d M O) (data : Data D) (s : Strategy F D d M O) (hs : MovesNothing r0 data s) (k k' : Key)
    (xs xs' : List (Pos F d)) (h h' : Heap F D d M O) (hk : KeepsSamplers r0 h) (hr : s.run env k xs data h = (.ok (k', xs'), h')) :
    k' = passiveKey s k ∧ xs' = xs ∧ KeepsSamplers r0 h' := by
  cases s with
  | takeSteps s => exact hs.elim
  | parallelTempering s => exact hs.elim
  | trainModel s => exact trainModel_passive env s k k' xs xs' h h' hk hr
  | updateState s => exact updateState_passive s k k' xs xs' h h' hk hr
  | custom f => exact hs k xs h k' xs' h' hk hr
  | lambda f =>
    simp only [Strategy.run, runLambda] at hr
    have := hs k xs h hk
    split at hr
    · simp at hr
    · rename_i e; rw [e] at this
      simp only [Prod.mk.injEq, Except.ok.injEq] at hr
      obtain ⟨⟨rfl, rfl⟩, rfl⟩ := hr
      exact ⟨rfl, rfl, this⟩

end FlowMC
