import Verif.Spec.Run
/-
C07–C10: the Sampler class; C05 (strategy part); C62: LogPDF.
-/
set_option linter.unusedSectionVars false
namespace FlowMC
open Spec

variable {F D : Type} {d : Nat} {M O : Type} {V : Type}

/-- C07. Explicit resources and strategies win (with the given order); the bundle is ignored. -/
theorem C07_explicit_wins (n c : Nat) (k : Key) (r : String → Option (Resource F D d M O))
    (st : StratDict F D d M O) (order : Option (List String)) (b : Option (Bundle F D d M O))
    (kw : List (String × V)) :
    ∃ s, Sampler.new n c k (some r) (some st) order b kw = .ok s ∧
      s.heap.res = r ∧ s.strategies = st.lookup ∧ s.strategyOrder = order ∧
      s.nDim = n ∧ s.nChains = c ∧ s.rngKey = k := ⟨_, rfl, rfl, rfl, rfl, rfl, rfl, rfl⟩

/-- C07. If resources or strategies are missing, all three come from the bundle (an explicitly given one and the given
order are ignored). -/
theorem C07_bundle (n c : Nat) (k : Key) (r : Option (String → Option (Resource F D d M O)))
    (st : Option (StratDict F D d M O)) (order : Option (List String)) (b : Bundle F D d M O)
    (kw : List (String × V)) (hmiss : r = none ∨ st = none) :
    ∃ s, Sampler.new n c k r st order (some b) kw = .ok s ∧
      s.heap.res = b.resources ∧ s.strategies = b.strategies.lookup ∧ s.strategyOrder = some b.strategyOrder ∧
      s.nDim = n ∧ s.nChains = c ∧ s.rngKey = k := by
  rcases hmiss with rfl | rfl
  · exact ⟨_, rfl, rfl, rfl, rfl, rfl, rfl, rfl⟩
  · cases r <;> exact ⟨_, rfl, rfl, rfl, rfl, rfl, rfl, rfl⟩

/-- C07. With neither, construction raises `ValueError`. -/
theorem C07_neither (n c : Nat) (k : Key) (r : Option (String → Option (Resource F D d M O)))
    (st : Option (StratDict F D d M O)) (order : Option (List String)) (kw : List (String × V))
    (hmiss : r = none ∨ st = none) :
    Sampler.new n c k r st order none kw = .error .valueError := by
  rcases hmiss with rfl | rfl
  · rfl
  · cases r <;> rfl

/-- Non-vacuity of C07: only resources given, with a non-trivial bundle. -/
example : ∃ s : Sampler Nat Unit 1 Unit Unit Unit,
    Sampler.new 1 4 (.root 0) (some (fun _ => none)) none (some ["x"])
      (some ⟨fun _ => none, ⟨fun _ => none, fun _ => 0⟩, ["a", "b"]⟩) [] = .ok s ∧ s.strategyOrder = some ["a", "b"] :=
  ⟨_, rfl, rfl⟩

/-- The attributes of `Sampler` that can be set by keyword. -/
def settable : List String := ["verbose", "logging", "outdir", "sample", "serialize", "deserialize"]

theorem settable_iff (k : String) (hk : k ∈ samplerClassKeys) : (!(k.startsWith "__")) = true ↔ k ∈ settable := by
  simp only [samplerClassKeys, List.mem_cons, List.not_mem_nil, or_false] at hk
  rcases hk with rfl | rfl | rfl | rfl | rfl | rfl | rfl | rfl | rfl | rfl | rfl | rfl <;> decide +kernel

theorem settable_sub (k : String) (hk : k ∈ settable) : k ∈ samplerClassKeys := by
  simp only [settable, List.mem_cons, List.not_mem_nil, or_false] at hk
  rcases hk with rfl | rfl | rfl | rfl | rfl | rfl <;> decide

theorem setAttrs_spec (kw : List (String × V)) : ∀ (a : String → Option V) (k : String),
    setAttrs kw a k =
      if k ∈ settable then ((kw.reverse.find? (fun kv => kv.1 = k)).map (·.2)).or (a k) else a k := by
  induction kw with
  | nil => intro a k; simp [setAttrs]
  | cons p rest ih =>
    intro a k
    have step : setAttrs (p :: rest) a = setAttrs rest (if p.1 ∈ settable then dictSet a p.1 p.2 else a) := by
      unfold setAttrs
      rw [List.foldl_cons]
      congr 1
      by_cases h : p.1 ∈ samplerClassKeys
      · simp only [h, if_true]
        by_cases h2 : p.1 ∈ settable
        · rw [if_pos ((settable_iff p.1 h).2 h2), if_pos h2]
        · rw [if_neg (fun h3 => h2 ((settable_iff p.1 h).1 h3)), if_neg h2]
      · simp only [h, if_false]
        rw [if_neg (fun h2 => h (settable_sub _ h2))]
    rw [step, ih]
    simp only [List.reverse_cons, List.find?_append]
    by_cases hk : k ∈ settable
    · simp only [hk, if_true]
      cases hf : List.find? (fun kv => decide (kv.1 = k)) rest.reverse with
      | some q => simp
      | none =>
        by_cases e : p.1 = k
        · subst e; simp [hk, dictSet]
        · have e' : ¬ k = p.1 := fun h => e h.symm
          by_cases h2 : p.1 ∈ settable <;> simp [h2, dictSet, e, e']
    · simp only [hk, if_false]
      by_cases h2 : p.1 ∈ settable
      · have e' : ¬ k = p.1 := fun h => hk (h ▸ h2)
        simp [h2, dictSet, e']
      · simp [h2]

/-- C10. A keyword sets an attribute exactly when it names one of the six public class attributes (the last value
wins); every other keyword is ignored; and the essential fields do not depend on the keywords. -/
theorem C10_kwargs (n c : Nat) (key : Key) (r : Option (String → Option (Resource F D d M O)))
    (st : Option (StratDict F D d M O)) (order : Option (List String)) (b : Option (Bundle F D d M O))
    (kw : List (String × V)) (s : Sampler F D d M O V)
    (hs : Sampler.new n c key r st order b kw = .ok s) :
    (∀ k, s.attrs k = if k ∈ settable then (kw.reverse.find? (fun kv => kv.1 = k)).map (·.2) else none) ∧
    (∀ kw' : List (String × V), ∃ s' : Sampler F D d M O V, Sampler.new n c key r st order b kw' = .ok s' ∧
      s'.nDim = s.nDim ∧ s'.nChains = s.nChains ∧ s'.rngKey = s.rngKey ∧ s'.heap = s.heap ∧
      s'.strategies = s.strategies ∧ s'.strategyOrder = s.strategyOrder) := by
  have key : s.attrs = setAttrs kw (fun _ => none) := by
    cases r <;> cases st <;> cases b <;> simp [Sampler.new] at hs <;> rw [← hs]
  constructor
  · intro k
    rw [key, setAttrs_spec]
    simp
  · intro kw'
    cases r <;> cases st <;> cases b <;> simp [Sampler.new] at hs <;> rw [← hs] <;>
      exact ⟨_, rfl, rfl, rfl, rfl, rfl, rfl, rfl⟩

/-- Non-vacuity of C10: `n_dim` and dunder keywords are ignored, `verbose` is set. -/
example : ∃ s : Sampler Nat Unit 1 Unit Unit Nat,
    Sampler.new 1 4 (.root 0) (some (fun _ => none)) (some ⟨fun _ => none, fun _ => 0⟩) none none
      [("verbose", 1), ("n_dim", 2), ("__init__", 3), ("typo", 4)] = .ok s ∧
    s.attrs "verbose" = some 1 ∧ s.attrs "n_dim" = none ∧ s.attrs "__init__" = none ∧ s.nDim = 1 := by
  refine ⟨_, rfl, ?_, ?_, ?_, rfl⟩ <;> dsimp only <;> rw [setAttrs_spec] <;> decide

section
variable [Zero F] [One F] [Add F] [Mul F] [Div F] [Sub F] [Neg F] [NatCast F] [Transc F] [FCmp F] [BufNum F]

/-- C08. `sample`'s loop completes exactly when calling the named strategies in order, once per occurrence, each on the
key, positions and resources returned by its predecessor, completes; and with the same result. -/
theorem C08_sequential (env : Env F D d M O) (strats : String → Option (Strategy F D d M O)) (data : Data D)
    (order : List String) (k k' : Key) (xs xs' : List (Pos F d)) (h h' : Heap F D d M O) :
    runOrder env strats order k xs data h = (.ok (k', xs'), h') ↔
      Completes env strats data order ⟨k, xs, h⟩ ⟨k', xs', h'⟩ := by
  induction order generalizing k xs h with
  | nil =>
    constructor
    · intro e; simp [runOrder] at e; obtain ⟨⟨rfl, rfl⟩, rfl⟩ := e; exact .done _
    · intro c; cases c; rfl
  | cons name names ih =>
    constructor
    · intro e
      simp only [runOrder] at e
      cases hs : strats name with
      | none => simp [hs] at e
      | some s =>
        simp only [hs] at e
        cases hr : s.run env k xs data h with
        | mk res h1 =>
          cases res with
          | error er => simp [hr] at e
          | ok p =>
            obtain ⟨k1, xs1⟩ := p
            simp only [hr] at e
            exact .next hs hr ((ih _ _ _).1 e)
    · intro c
      cases c with
      | next hs hr rest =>
        simp only [runOrder, hs]
        rw [hr]
        exact (ih _ _ _).2 rest

/-- C08. Running order `A ++ B` is running `A` and then `B` from where `A` ended (errors of `A` included). -/
theorem C08_append (env : Env F D d M O) (strats : String → Option (Strategy F D d M O)) (data : Data D)
    (A B : List String) (k : Key) (xs : List (Pos F d)) (h : Heap F D d M O) :
    runOrder env strats (A ++ B) k xs data h =
      match runOrder env strats A k xs data h with
      | (.ok (k', xs'), h') => runOrder env strats B k' xs' data h'
      | (.error e, h') => (.error e, h') := by
  induction A generalizing k xs h with
  | nil => simp [runOrder]
  | cons name names ih =>
    simp only [List.cons_append, runOrder]
    cases strats name with
    | none => rfl
    | some s =>
      dsimp only
      cases s.run env k xs data h with
      | mk res h1 =>
        cases res with
        | error er => rfl
        | ok p => exact ih _ _ _

/-- C08/C09 lifted to `Sampler.sample`: the resources after a call are those left by the loop started with the
sampler's own key, and the sampler's key, strategies and order are unchanged. -/
theorem C08_sample (env : Env F D d M O) (s : Sampler F D d M O V) (order : List String)
    (ho : s.strategyOrder = some order) (init : InitPos F d) (data : Data D) :
    let r := runOrder env s.strategies order s.rngKey init.atleast2d data s.heap
    (s.sample env init data).2.heap = r.2 ∧
    ((s.sample env init data).1 = .ok () ↔ ∃ w, r.1 = .ok w) ∧
    (∀ e, (s.sample env init data).1 = .error e ↔ r.1 = .error e) ∧
    (s.sample env init data).2.rngKey = s.rngKey ∧
    (s.sample env init data).2.strategies = s.strategies ∧
    (s.sample env init data).2.strategyOrder = s.strategyOrder := by
  intro r
  unfold Sampler.sample
  rw [ho]
  dsimp only
  change let r := r; _
  cases hr : runOrder env s.strategies order s.rngKey init.atleast2d data s.heap with
  | mk res h' =>
    have hr' : r = (res, h') := hr
    cases res with
    | error e => simp [hr']
    | ok p => simp [hr']

/-- C08. Without an order `sample` raises (AssertionError) and changes nothing. -/
theorem C08_no_order (env : Env F D d M O) (s : Sampler F D d M O V) (ho : s.strategyOrder = none)
    (init : InitPos F d) (data : Data D) : s.sample env init data = (.error .assertionError, s) := by
  unfold Sampler.sample; rw [ho]

/-- C09. The loop fails exactly when some strategy in the order is the first problem: everything before it
completed, and it is either an unknown name (`ValueError`, resources exactly as the prefix left them) or it raised itself
(resources as it left them); nothing after it runs. -/
theorem C09_prefix_effects (env : Env F D d M O) (strats : String → Option (Strategy F D d M O)) (data : Data D)
    (order : List String) (k : Key) (xs : List (Pos F d)) (h h' : Heap F D d M O) (e : Err) :
    runOrder env strats order k xs data h = (.error e, h') ↔
      ∃ pre name post k1 xs1 h1, order = pre ++ name :: post ∧
        Completes env strats data pre ⟨k, xs, h⟩ ⟨k1, xs1, h1⟩ ∧
        ((strats name = none ∧ e = .valueError ∧ h' = h1) ∨
         ∃ s, strats name = some s ∧ s.run env k1 xs1 data h1 = (.error e, h')) := by
  induction order generalizing k xs h with
  | nil => simp [runOrder]
  | cons name names ih =>
    constructor
    · intro er
      simp only [runOrder] at er
      cases hs : strats name with
      | none =>
        simp only [hs, Prod.mk.injEq, Except.error.injEq] at er
        exact ⟨[], name, names, k, xs, h, rfl, .done _, .inl ⟨hs, er.1.symm, er.2.symm⟩⟩
      | some s =>
        simp only [hs] at er
        cases hr : s.run env k xs data h with
        | mk res h1 =>
          cases res with
          | error e1 =>
            simp only [hr, Prod.mk.injEq, Except.error.injEq] at er
            obtain ⟨rfl, rfl⟩ := er
            exact ⟨[], name, names, k, xs, h, rfl, .done _, .inr ⟨s, hs, hr⟩⟩
          | ok p =>
            obtain ⟨k1, xs1⟩ := p
            simp only [hr] at er
            obtain ⟨pre, nm, post, k2, xs2, h2, rfl, hc, hf⟩ := (ih _ _ _).1 er
            exact ⟨name :: pre, nm, post, k2, xs2, h2, rfl, .next hs hr hc, hf⟩
    · rintro ⟨pre, nm, post, k1, xs1, h1, heq, hc, hf⟩
      rw [heq, C08_append, (C08_sequential env strats data pre k k1 xs xs1 h h1).2 hc]
      simp only [runOrder]
      rcases hf with ⟨hn, rfl, rfl⟩ | ⟨s, hs, hr⟩
      · simp [hn]
      · simp [hs, hr]

/-- C08. A single position (a 1-d array) is one chain; an array of positions is one chain per row, in order. -/
theorem C08_start (env : Env F D d M O) (s : Sampler F D d M O V) (order : List String) (ho : s.strategyOrder = some order) (data : Data D) (w : World F D d M O)
    (x : Pos F d) (xs : List (Pos F d)) :
    (Completes env s.strategies data order ⟨s.rngKey, [x], s.heap⟩ w → s.sample env (.vec x) data = (.ok (), { s with heap := w.heap })) ∧
    (Completes env s.strategies data order ⟨s.rngKey, xs, s.heap⟩ w → s.sample env (.mat xs) data = (.ok (), { s with heap := w.heap })) := by
  obtain ⟨k', xs', h'⟩ := w
  constructor <;> intro hc <;>
  · have := (C08_sequential env s.strategies data order _ _ _ _ _ _).2 hc
    unfold Sampler.sample
    simp only [ho, InitPos.atleast2d, this]

/-- Non-vacuity of C08_start: a single position and a callable that notes how many chains it was given. -/
example (env : Env F D d M O) (s : Sampler F D d M O V) (ho : s.strategyOrder = some ["a"]) (data : Data D) (x y : Pos F d)
    (ha : s.strategies "a" = some (.lambda (fun _ xs _ h => (.ok (), h.setPos "chains" xs.length)))) :
    s.sample env (.vec x) data = (.ok (), { s with heap := s.heap.setPos "chains" 1 }) ∧ s.sample env (.mat [x, y]) data = (.ok (), { s with heap := s.heap.setPos "chains" 2 }) :=
  ⟨(C08_start env s _ ho data ⟨s.rngKey, [x], s.heap.setPos "chains" 1⟩ x []).1 (.next ha (by simp [Strategy.run, runLambda]) (.done _)),
   (C08_start env s _ ho data ⟨s.rngKey, [x, y], s.heap.setPos "chains" 2⟩ x [x, y]).2 (.next ha (by simp [Strategy.run, runLambda]) (.done _))⟩

/-- C09 for `sample` itself: when the call raises, the sampler keeps the resources as the completed prefix and the failing strategy left them (there is no roll-back), and
everything else about the sampler is unchanged. -/
theorem C09_sample (env : Env F D d M O) (s : Sampler F D d M O V) (order : List String) (ho : s.strategyOrder = some order) (init : InitPos F d) (data : Data D) (e : Err)
    (s' : Sampler F D d M O V) :
    s.sample env init data = (.error e, s') ↔
      ∃ pre name post k1 xs1 h1 h', order = pre ++ name :: post ∧ Completes env s.strategies data pre ⟨s.rngKey, init.atleast2d, s.heap⟩ ⟨k1, xs1, h1⟩ ∧
        ((s.strategies name = none ∧ e = .valueError ∧ h' = h1) ∨ ∃ t, s.strategies name = some t ∧ t.run env k1 xs1 data h1 = (.error e, h')) ∧ s' = { s with heap := h' } := by
  have hp := fun h' => C09_prefix_effects env s.strategies data order s.rngKey init.atleast2d s.heap h' e
  unfold Sampler.sample
  rw [ho]
  dsimp only
  cases hr : runOrder env s.strategies order s.rngKey init.atleast2d data s.heap with
  | mk res h2 =>
    rw [hr] at hp
    constructor
    · intro hs
      cases res with
      | ok q => simp at hs
      | error e2 =>
        simp only [Prod.mk.injEq, Except.error.injEq] at hs
        obtain ⟨rfl, rfl⟩ := hs
        obtain ⟨pre, name, post, k1, xs1, h1, a, b, c⟩ := (hp h2).1 rfl
        exact ⟨pre, name, post, k1, xs1, h1, h2, a, b, c, rfl⟩
    · rintro ⟨pre, name, post, k1, xs1, h1, h', a, b, c, rfl⟩
      have := (hp h').2 ⟨pre, name, post, k1, xs1, h1, a, b, c⟩
      simp only [Prod.mk.injEq] at this
      obtain ⟨rfl, rfl⟩ := this
      rfl

/-- C09 for a `Lambda` strategy. What the user's callable does is what the strategy does: if it raises, the strategy raises the same exception and leaves the resources as the
callable left them; if it returns, whatever it returns, the strategy hands on the key and the positions it was given. -/
theorem C09_lambda (env : Env F D d M O) (f : LambdaFn F D d M O) (k : Key) (xs : List (Pos F d)) (data : Data D) (h h' : Heap F D d M O) :
    (∀ e, (Strategy.lambda f).run env k xs data h = (.error e, h') ↔ f k xs data h = (.error e, h')) ∧
    (∀ k' xs', (Strategy.lambda f).run env k xs data h = (.ok (k', xs'), h') ↔ f k xs data h = (.ok (), h') ∧ k' = k ∧ xs' = xs) := by
  simp only [Strategy.run, runLambda]
  rcases hf : f k xs data h with ⟨_ | ⟨⟩, h2⟩
  · simp
  · constructor
    · simp
    · intro k' xs'
      simp only [Prod.mk.injEq, Except.ok.injEq, true_and]
      grind

/-- C09 for `sample` with a `Lambda`: an exception raised by the user's callable reaches the caller of `sample`, after the calls before it have taken effect and before any call after it. -/
theorem C09_lambda_sample (env : Env F D d M O) (s : Sampler F D d M O V) (pre post : List String) (name : String) (ho : s.strategyOrder = some (pre ++ name :: post)) (f : LambdaFn F D d M O)
    (hf : s.strategies name = some (.lambda f)) (init : InitPos F d) (data : Data D) (k1 : Key) (xs1 : List (Pos F d)) (h1 h' : Heap F D d M O) (e : Err)
    (hc : Completes env s.strategies data pre ⟨s.rngKey, init.atleast2d, s.heap⟩ ⟨k1, xs1, h1⟩) (hr : f k1 xs1 data h1 = (.error e, h')) :
    s.sample env init data = (.error e, { s with heap := h' }) :=
  (C09_sample env s _ ho init data e _).2 ⟨pre, name, post, k1, xs1, h1, h', rfl, hc, .inr ⟨_, hf, ((C09_lambda env f k1 xs1 data h1 h').1 e).2 hr⟩, rfl⟩

/-- Non-vacuity of C09_lambda_sample: a callable that stores something and then raises, between two others; the first takes effect, the third never runs. -/
example (env : Env F D d M O) (s : Sampler F D d M O V) (ho : s.strategyOrder = some ["a", "b", "c"]) (data : Data D) (x : Pos F d)
    (ha : s.strategies "a" = some (.lambda (fun _ _ _ h => (.ok (), h.setPos "u" 1)))) (hb : s.strategies "b" = some (.lambda (fun _ _ _ h => (.error .keyError, h.setPos "v" 2))))
    (_hc : s.strategies "c" = some (.lambda (fun _ _ _ h => (.ok (), h.setPos "u" 3)))) :
    s.sample env (.vec x) data = (.error .keyError, { s with heap := (s.heap.setPos "u" 1).setPos "v" 2 }) :=
  C09_lambda_sample env s ["a"] ["c"] "b" ho _ hb (.vec x) data s.rngKey [x] (s.heap.setPos "u" 1) _ .keyError
    (.next ha (((C09_lambda env _ _ _ data _ _).2 _ _).2 ⟨rfl, rfl, rfl⟩) (.done _)) rfl

/-- Non-vacuity of C09: a known strategy followed by an unknown name. -/
example (env : Env F D d M O) (h : Heap F D d M O) (data : Data D) :
    let strats : String → Option (Strategy F D d M O) := fun n =>
      if n = "a" then some (.lambda (fun _ _ _ h => (.ok (), h.setPos "a" 7))) else none
    runOrder env strats ["a", "zzz", "a"] (.root 0) [] data h = (.error .valueError, h.setPos "a" 7) := by
  simp [runOrder, Strategy.run, runLambda]

/-- C05. The UpdateState strategy changes only the named State resource (to the updated state) and neither the key, nor
the positions, nor any cursor. -/
theorem C05_update_state_strategy (s : UpdateState) (k : Key) (xs : List (Pos F d)) (h : Heap F D d M O) (st : State)
    (hst : h.res s.stateName = some (.state st)) :
    ∃ h', s.run k xs h = (.ok (k, xs), h') ∧ h'.pos = h.pos ∧
      h'.res s.stateName = some (.state (st.update s.keys s.values)) ∧
      ∀ n, n ≠ s.stateName → h'.res n = h.res n := by
  refine ⟨h.setRes s.stateName (.state (st.update s.keys s.values)), ?_, rfl, ?_, ?_⟩
  · simp [UpdateState.run, Heap.getState, Heap.get, hst]
  · simp [Heap.setRes, dictSet]
  · intro n hn; simp [Heap.setRes, dictSet, hn]

/-- C05. If the resource is missing or not a State, UpdateState raises and changes nothing. -/
theorem C05_update_state_bad (s : UpdateState) (k : Key) (xs : List (Pos F d)) (h : Heap F D d M O)
    (hst : ∀ st, h.res s.stateName ≠ some (.state st)) :
    ∃ e, s.run k xs h = (.error e, h) := by
  unfold UpdateState.run Heap.getState Heap.get
  cases hr : h.res s.stateName with
  | none => exact ⟨_, rfl⟩
  | some r => cases r <;> first | exact ⟨_, rfl⟩ | exact absurd hr (hst _)

end

/-- C62. The constructor needs variables or a dimension; variables win; the default variables are `x_0 … x_{n-1}`,
all continuous; `n_dims` is the number of variables;
and calling the object evaluates the function it was given. -/
theorem C62_ctor (f : Target F D d) :
    LogPDF.new f none none = .error .valueError ∧
    (∀ vs n, ∃ l, LogPDF.new f (some vs) n = .ok l ∧ l.variables = vs ∧ l.nDims = vs.length ∧ l.logPdf = f ∧ ∀ x data, l.call x data = f.val x data) ∧
    (∀ n, ∃ l, LogPDF.new f none (some n) = .ok l ∧ l.nDims = n ∧ l.logPdf = f ∧ (∀ x data, l.call x data = f.val x data) ∧
      ∀ i, l.variables[i]? = if i < n then some ⟨"x_" ++ toString i, true⟩ else none) := by
  refine ⟨rfl, fun vs n => ⟨_, rfl, rfl, rfl, rfl, fun _ _ => rfl⟩, fun n => ⟨_, rfl, ?_, rfl, fun _ _ => rfl, ?_⟩⟩
  · simp [LogPDF.nDims]
  · intro i
    by_cases h : i < n
    · simp [h]
    · simp [h]

/-- C62 for TemperedPDF: same requirements, the prior is kept. -/
theorem C62_tempered_ctor (f g : Target F D d) :
    TemperedPDF.new f g none none = .error .valueError ∧
    (∀ vs n, ∃ l, TemperedPDF.new f g (some vs) n = .ok l ∧ l.base.variables = vs ∧ l.base.logPdf = f ∧
      l.logPrior = g ∧ ∀ x data, l.call x data = f.val x data) ∧
    (∀ n, ∃ l, TemperedPDF.new f g none (some n) = .ok l ∧ l.base.nDims = n ∧ l.base.logPdf = f ∧ l.logPrior = g ∧
      ∀ x data, l.call x data = f.val x data) := by
  refine ⟨rfl, fun vs n => ⟨_, rfl, rfl, rfl, rfl, fun _ _ => rfl⟩, fun n => ⟨_, rfl, ?_, rfl, rfl, fun _ _ => rfl⟩⟩
  simp [LogPDF.nDims]

/-- C62. The pytree round trip gives back the same object. -/
theorem C62_pytree (l : LogPDF F D d) (p : TemperedPDF F D d) :
    LogPDF.unflatten l.flatten = .ok l ∧ TemperedPDF.unflatten p.flatten = .ok p := ⟨rfl, rfl⟩

end FlowMC
