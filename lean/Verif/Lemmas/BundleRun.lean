import Verif.Props.StepCall
import Verif.Spec.BundleRun
/-
Lemmas for whole bundle runs: frames of the strategies, appending a block to a recording.
-/
set_option linter.unusedSectionVars false
namespace FlowMC
open Spec

variable {F D : Type} {d : Nat} {M O : Type}
variable [Zero F] [One F] [Add F] [Mul F] [Div F] [Sub F] [Neg F] [NatCast F] [Transc F] [FCmp F] [BufNum F]

/-! ### Completes -/

theorem completes_cons {env : Env F D d M O} {strats : String → Option (Strategy F D d M O)} {data : Data D} {name : String} {names : List String}
    {w w' : World F D d M O} : Completes env strats data (name :: names) w w' ↔
      ∃ s k' xs' h', strats name = some s ∧ s.run env w.key w.xs data w.heap = (.ok (k', xs'), h') ∧
        Completes env strats data names ⟨k', xs', h'⟩ w' := by
  constructor
  · intro h
    cases h with
    | next hs hr rest => exact ⟨_, _, _, _, hs, hr, rest⟩
  · rintro ⟨s, k', xs', h', hs, hr, rest⟩
    exact .next hs hr rest

theorem completes_nil {env : Env F D d M O} {strats : String → Option (Strategy F D d M O)} {data : Data D}
    {w w' : World F D d M O} : Completes env strats data [] w w' ↔ w' = w := by
  constructor
  · intro h; cases h; rfl
  · rintro rfl; exact .done _

theorem completes_append {env : Env F D d M O} {strats : String → Option (Strategy F D d M O)} {data : Data D} {as bs : List String}
    {w w' : World F D d M O} : Completes env strats data (as ++ bs) w w' ↔
      ∃ w1, Completes env strats data as w w1 ∧ Completes env strats data bs w1 w' := by
  induction as generalizing w with
  | nil => simp [completes_nil]
  | cons a as ih =>
    simp only [List.cons_append, completes_cons, ih]
    constructor
    · rintro ⟨s, k', xs', h', hs, hr, w1, h1, h2⟩
      exact ⟨w1, ⟨s, k', xs', h', hs, hr, h1⟩, h2⟩
    · rintro ⟨w1, ⟨s, k', xs', h', hs, hr, h1⟩, h2⟩
      exact ⟨s, k', xs', h', hs, hr, w1, h1, h2⟩

/-! ### frames -/

/-- The resource is not a buffer. -/
def NotBuffer (r : Option (Resource F D d M O)) : Prop := ∀ b, r ≠ some (.buffer b)

theorem updateBuffer_notBuffer (h : Heap F D d M O) (name n : String) (upd : NDArr F) (start : Int) (hn : NotBuffer (h.res n)) :
    (h.updateBuffer name upd start).2.res n = h.res n := by
  by_cases hne : n = name
  · subst hne
    unfold Heap.updateBuffer Heap.getBuffer Heap.get
    cases hr : h.res n with
    | none => simp [hr]
    | some r =>
      cases r with
      | buffer b => exact absurd hr (hn b)
      | _ => simp [hr]
  · exact (h.updateBuffer_frame name upd start).1 n hne

theorem commit_notBuffer (s : TakeSteps) (nc : Nat) (p : StepPlan F d) (h : Heap F D d M O) (n : String) (hn : NotBuffer (h.res n)) :
    (s.commit nc p h).2.res n = h.res n := by
  unfold TakeSteps.commit
  have f1 := updateBuffer_notBuffer h p.posName n (posArr nc s.nRows p.rows) (h.pos s.ident : Nat) hn
  simp only
  split
  · rename_i h1 e1; rw [e1] at f1; exact f1
  · rename_i h1 e1
    rw [e1] at f1
    simp only at f1
    have f2 := updateBuffer_notBuffer h1 p.lpName n (lpArr nc s.nRows p.rows) (h.pos s.ident : Nat) (by rw [f1]; exact hn)
    split
    · rename_i h2 e2; rw [e2] at f2; exact f2.trans f1
    · rename_i h2 e2
      rw [e2] at f2
      simp only at f2
      have f3 := updateBuffer_notBuffer h2 p.accName n (accArr nc s.nRows p.rows) (h.pos s.ident : Nat) (by rw [f2, f1]; exact hn)
      split
      · rename_i h3 e3; rw [e3] at f3; exact f3.trans (f2.trans f1)
      · rename_i h3 e3
        rw [e3] at f3
        simp only at f3
        split <;> exact f3.trans (f2.trans f1)

theorem takeSteps_notBuffer (env : Env F D d M O) (s : TakeSteps) (k : Key) (xs : List (Pos F d)) (data : Data D) (h : Heap F D d M O) (n : String)
    (hn : NotBuffer (h.res n)) : (s.run env k xs data h).2.res n = h.res n := by
  unfold TakeSteps.run
  split
  · rfl
  · exact commit_notBuffer _ _ _ _ _ hn

theorem recordLosses_frame (name : String) (losses : List F) (h : Heap F D d M O) :
    (∀ n, n ≠ name → (recordLosses name losses h).2.res n = h.res n) ∧ (recordLosses name losses h).2.pos = h.pos := by
  unfold recordLosses
  split
  · exact ⟨fun _ _ => rfl, rfl⟩
  · split
    · exact ⟨fun _ _ => rfl, rfl⟩
    · split
      · exact ⟨fun _ _ => rfl, rfl⟩
      · exact ⟨fun n hn => by simp [Heap.setRes, dictSet, hn], rfl⟩

/-- A training call touches only its loss buffer, model and optimiser; a successful one hands the positions on unchanged and leaves a model under
the model's name. -/
theorem trainModel_frame (env : Env F D d M O) (s : TrainModel) (k : Key) (xs : List (Pos F d)) (h : Heap F D d M O) :
    (∀ n, n ≠ s.lossBufferName → n ≠ s.modelName → n ≠ s.optimizerName → (s.run env k xs h).2.res n = h.res n) ∧
    (s.run env k xs h).2.pos = h.pos ∧
    ∀ k' ys h', s.run env k xs h = (.ok (k', ys), h') → ys = xs ∧ (s.modelName ≠ s.optimizerName → ∃ m, h'.res s.modelName = some (.model m)) := by
  unfold TrainModel.run
  split
  · exact ⟨fun _ _ _ _ => rfl, rfl, by simp⟩
  · rename_i r hp
    have f := recordLosses_frame s.lossBufferName r.losses h
    split
    · rename_i e; rw [e] at f; exact ⟨fun n h1 _ _ => f.1 n h1, f.2, by simp⟩
    · rename_i e
      rw [e] at f
      refine ⟨fun n h1 h2 h3 => ?_, f.2, ?_⟩
      · simp only [Heap.setRes, dictSet, h2, h3, if_false]; exact f.1 n h1
      · intro k' ys h' heq
        simp only [Prod.mk.injEq, Except.ok.injEq] at heq
        obtain ⟨⟨-, rfl⟩, rfl⟩ := heq
        exact ⟨rfl, fun hne => ⟨r.model, by simp [Heap.setRes, dictSet, hne]⟩⟩

/-! ### appending a block -/

theorem tagged_append (log log' : List (Block F d)) (i : Nat) : tagged (log ++ log') i = tagged log i ++ tagged log' i := by
  simp [tagged, List.flatMap_append]

theorem blocksLen_append (len : Bool → Nat) (log log' : List (Block F d)) : blocksLen len (log ++ log') = blocksLen len log + blocksLen len log' := by
  simp [blocksLen]

theorem tagged_length (n : Nat) (len : Bool → Nat) (log : List (Block F d)) (hw : WellSized n len log) (i : Nat) (hi : i < n) :
    (tagged log i).length = blocksLen len log := by
  induction log with
  | nil => rfl
  | cons b log ih =>
    have hb := hw b (by simp)
    have : (b.rows[i]?).getD [] = b.rows[i]'(by omega) := by simp [List.getElem?_eq_getElem (show i < b.rows.length by omega)]
    have hr := hb.2 (b.rows[i]'(by omega)) (List.getElem_mem _)
    simp only [tagged, List.flatMap_cons, List.length_append, List.length_map, blocksLen, List.map_cons, List.sum_cons, this, hr]
    exact congrArg (len b.isLocal + ·) (ih (fun b hb => hw b (by simp [hb])))

theorem Spec.Recording.congr {h h' : Heap F D d M O} {n T : Nat} {P L : String} {acc : Bool → String} {log : List (Block F d)}
    (hr : Recording h n T P L acc log) (hP : h'.res P = h.res P) (hL : h'.res L = h.res L) (hA : ∀ t, h'.res (acc t) = h.res (acc t)) :
    Recording h' n T P L acc log where
  pos := by obtain ⟨b, hb, h2⟩ := hr.pos; exact ⟨b, by rw [hP, hb], h2⟩
  logp := by obtain ⟨b, hb, h2⟩ := hr.logp; exact ⟨b, by rw [hL, hb], h2⟩
  acc := fun t => by obtain ⟨b, hb, h2⟩ := hr.acc t; exact ⟨b, by rw [hA, hb], h2⟩

/-- Cell `j` of a log with one more block. -/
theorem tagged_snoc_get (n : Nat) (len : Bool → Nat) (log : List (Block F d)) (hw : WellSized n len log) (b : Block F d) (i j : Nat) (hi : i < n) :
    (tagged (log ++ [b]) i)[j]? = if j < blocksLen len log then (tagged log i)[j]?
      else (cellOf b.rows i (j - blocksLen len log)).map (fun o => (b.isLocal, o)) := by
  rw [tagged_append]
  have hl := tagged_length n len log hw i hi
  split
  · rename_i hj; rw [List.getElem?_append_left (by omega)]
  · rename_i hj
    rw [List.getElem?_append_right (by omega), hl]
    simp only [tagged, List.flatMap_cons, List.flatMap_nil, List.append_nil, List.getElem?_map, cellOf]
    cases b.rows[i]? <;> simp

theorem record_step (s : TakeSteps) (h h' : Heap F D d M O) (n T : Nat) (P L : String) (acc : Bool → String) (tag : Bool) (len : Bool → Nat)
    (log : List (Block F d)) (rec : List (List (StepOut F d))) (bP bL bA : Buffer F)
    (hrec : Recorders h n T P L (acc tag) bP bL bA) (hR : Recording h n T P L acc log) (hw : WellSized n len log)
    (he : StepEffect s h h' n T P L (acc tag) bP bL bA rec) (hcur : h.pos s.ident = blocksLen len log)
    (hlen : ceilDiv' s.nSteps s.thinning = len tag) (hb : WellSized n len [⟨tag, rec⟩]) (_hfit : blocksLen len log + len tag ≤ T)
    (hother : acc (!tag) ≠ P ∧ acc (!tag) ≠ L ∧ acc (!tag) ≠ acc tag) :
    Recording h' n T P L acc (log ++ [⟨tag, rec⟩]) ∧ WellSized n len (log ++ [⟨tag, rec⟩]) := by
  have hwb := hb ⟨tag, rec⟩ (by simp)
  have hcell : ∀ i j, i < n → j < len tag → ∃ o, cellOf rec i j = some o := by
    intro i j hi hj
    have h1 : i < rec.length := by have := hwb.1; simp only at this; omega
    have h2 := hwb.2 (rec[i]) (List.getElem_mem _)
    simp only at h2
    exact ⟨rec[i][j]'(by omega), by simp [cellOf, h1, h2, hj]⟩
  have hnone : ∀ i j, len tag ≤ j → cellOf rec i j = none := by
    intro i j hj
    unfold cellOf
    cases hr : rec[i]? with
    | none => rfl
    | some r =>
      have := hwb.2 r (List.mem_of_getElem? hr)
      simp only at this
      simp; omega
  refine ⟨⟨?_, ?_, ?_⟩, ?_⟩
  · obtain ⟨b', hb', hrec3⟩ := he.pos
    obtain ⟨b0, hb0, hs0, hd0, hg0⟩ := hR.pos
    rw [hrec.resP] at hb0; simp only [Option.some.injEq, Resource.buffer.injEq] at hb0; subst hb0
    refine ⟨b', hb', by rw [hrec3.same.2.2.2, hs0], by rw [hrec3.same.2.2.1, hd0], ?_⟩
    intro i j c hi hj
    rw [tagged_snoc_get n len log hw _ i j hi]
    rw [hcur, hlen] at hrec3
    by_cases h1 : j < blocksLen len log
    · rw [if_pos h1, hrec3.outside i j c hi hj (by omega), hg0 i j c hi hj]
    · rw [if_neg h1]
      by_cases h2 : j < blocksLen len log + len tag
      · obtain ⟨o, ho⟩ := hcell i (j - blocksLen len log) hi (by omega)
        have := hrec3.inside i (j - blocksLen len log) o.pos hi (by omega) (by rw [ho]; rfl) c
        rw [show blocksLen len log + (j - blocksLen len log) = j by omega] at this
        rw [this, ho]; rfl
      · rw [hnone i _ (by omega), hrec3.outside i j c hi hj (by omega), hg0 i j c hi hj]
        rw [List.getElem?_eq_none (by rw [tagged_length n len log hw i hi]; omega)]
        rfl
  · obtain ⟨b', hb', hrec3⟩ := he.logp
    obtain ⟨b0, hb0, hs0, hd0, hg0⟩ := hR.logp
    rw [hrec.resL] at hb0; simp only [Option.some.injEq, Resource.buffer.injEq] at hb0; subst hb0
    refine ⟨b', hb', by rw [hrec3.same.2.2.2, hs0], by rw [hrec3.same.2.2.1, hd0], ?_⟩
    intro i j hi hj
    rw [tagged_snoc_get n len log hw _ i j hi]
    rw [hcur, hlen] at hrec3
    by_cases h1 : j < blocksLen len log
    · rw [if_pos h1, hrec3.outside i j hi hj (by omega), hg0 i j hi hj]
    · rw [if_neg h1]
      by_cases h2 : j < blocksLen len log + len tag
      · obtain ⟨o, ho⟩ := hcell i (j - blocksLen len log) hi (by omega)
        have := hrec3.inside i (j - blocksLen len log) o.logp hi (by omega) (by rw [ho]; rfl)
        rw [show blocksLen len log + (j - blocksLen len log) = j by omega] at this
        rw [this, ho]; rfl
      · rw [hnone i _ (by omega), hrec3.outside i j hi hj (by omega), hg0 i j hi hj]
        rw [List.getElem?_eq_none (by rw [tagged_length n len log hw i hi]; omega)]
        rfl
  · intro tag'
    by_cases ht : tag' = tag
    · subst ht
      obtain ⟨b', hb', hrec3⟩ := he.acc
      obtain ⟨b0, hb0, hs0, hd0, hg0⟩ := hR.acc tag'
      rw [hrec.resA] at hb0; simp only [Option.some.injEq, Resource.buffer.injEq] at hb0; subst hb0
      refine ⟨b', hb', by rw [hrec3.same.2.2.2, hs0], by rw [hrec3.same.2.2.1, hd0], ?_⟩
      intro i j hi hj
      rw [tagged_snoc_get n len log hw _ i j hi]
      rw [hcur, hlen] at hrec3
      by_cases h1 : j < blocksLen len log
      · rw [if_pos h1, hrec3.outside i j hi hj (by omega), hg0 i j hi hj]
      · rw [if_neg h1]
        by_cases h2 : j < blocksLen len log + len tag'
        · obtain ⟨o, ho⟩ := hcell i (j - blocksLen len log) hi (by omega)
          have := hrec3.inside i (j - blocksLen len log) (BufNum.ofBool o.acc) hi (by omega) (by rw [ho]; rfl)
          rw [show blocksLen len log + (j - blocksLen len log) = j by omega] at this
          rw [this, ho]; simp
        · rw [hnone i _ (by omega), hrec3.outside i j hi hj (by omega), hg0 i j hi hj]
          rw [List.getElem?_eq_none (by rw [tagged_length n len log hw i hi]; omega)]
          rfl
    · have ht' : tag' = !tag := by cases tag <;> cases tag' <;> simp_all
      subst ht'
      obtain ⟨b0, hb0, hs0, hd0, hg0⟩ := hR.acc (!tag)
      refine ⟨b0, by rw [he.frame _ hother.1 hother.2.1 hother.2.2, hb0], hs0, hd0, ?_⟩
      intro i j hi hj
      rw [hg0 i j hi hj, tagged_snoc_get n len log hw _ i j hi]
      by_cases h1 : j < blocksLen len log
      · rw [if_pos h1]
      · rw [if_neg h1, List.getElem?_eq_none (by rw [tagged_length n len log hw i hi]; omega)]
        cases cellOf rec i (j - blocksLen len log) <;> simp
  · intro b hb
    rcases List.mem_append.1 hb with h1 | h1
    · exact hw b h1
    · rw [List.mem_singleton.1 h1]; exact hwb

end FlowMC
