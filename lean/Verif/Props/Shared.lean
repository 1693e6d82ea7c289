import Verif.Spec.Shared
import Verif.Props.SecondRun
/-
C112: several samplers in one program.
-/
set_option linter.unusedSectionVars false
namespace FlowMC
open Spec

variable {F D : Type} {d : Nat} {M O V : Type}
variable [Zero F] [One F] [Add F] [Mul F] [Div F] [Sub F] [Neg F] [NatCast F] [Transc F] [FCmp F] [BufNum F]

theorem seenAlike_view {s t : SamplerObj F D d M O V} (h : SameBundle s t) {σ τ : Store F D d M O} (hs : SeenAlike s σ τ) : t.view σ = t.view τ := by
  simp only [SamplerObj.view, ← h.1, ← h.2, hs.1, hs.2]

/-- C112 (separate bundles). A program makes any number of `sample` calls on any samplers, each either made from the same bundle as `s` or from separate dictionaries.
Leaving out all calls on separate samplers — wherever they are, whatever they do, also if they raise — changes nothing for `s`: the remaining calls have
the same outcomes, and everything read through `s` afterwards is the same. -/
theorem C112_separate (env : Env F D d M O) (s : SamplerObj F D d M O V) (σ : Store F D d M O) (calls : List (Bool × SampleCall F D d M O V))
    (hmine : ∀ c ∈ calls, (c.1 = true → SameBundle s c.2.obj) ∧ (c.1 = false → Separate s c.2.obj)) :
    let all := runCalls env σ (calls.map (·.2))
    let mine := runCalls env σ ((calls.filter (·.1)).map (·.2))
    s.view all.2 = s.view mine.2 ∧ ((calls.map (·.1)).zip all.1).filterMap (fun p => if p.1 then some p.2 else none) = mine.1 := by
  have key : ∀ (calls : List (Bool × SampleCall F D d M O V)) (σ τ : Store F D d M O), SeenAlike s σ τ →
      (∀ c ∈ calls, (c.1 = true → SameBundle s c.2.obj) ∧ (c.1 = false → Separate s c.2.obj)) →
      SeenAlike s (runCalls env σ (calls.map (·.2))).2 (runCalls env τ ((calls.filter (·.1)).map (·.2))).2 ∧
      ((calls.map (·.1)).zip (runCalls env σ (calls.map (·.2))).1).filterMap (fun p => if p.1 then some p.2 else none) =
        (runCalls env τ ((calls.filter (·.1)).map (·.2))).1 := by
    intro calls
    induction calls with
    | nil => intro σ τ h _; exact ⟨h, rfl⟩
    | cons c cs ih =>
      intro σ τ h hm
      obtain ⟨b, c⟩ := c
      have hc := hm _ List.mem_cons_self
      have hcs : ∀ c ∈ cs, _ := fun c hc => hm c (List.mem_cons_of_mem _ hc)
      cases b with
      | true =>
        have hsb := hc.1 rfl
        have hv := seenAlike_view hsb h
        have h' : SeenAlike s (c.obj.sample env σ c.init c.data).2 (c.obj.sample env τ c.init c.data).2 := by
          simp only [SamplerObj.sample, SeenAlike, hv, hsb.1, hsb.2, Function.update_self, and_self]
        have := ih _ _ h' hcs
        have ho : (c.obj.sample env σ c.init c.data).1 = (c.obj.sample env τ c.init c.data).1 := by simp only [SamplerObj.sample, hv]
        simp only [List.map_cons, List.filter_cons, if_true, runCalls, List.zip_cons_cons, List.filterMap_cons, this.2, ho]
        exact ⟨this.1, trivial⟩
      | false =>
        have hsep := hc.2 rfl
        have h' : SeenAlike s (c.obj.sample env σ c.init c.data).2 τ := by
          simp only [SamplerObj.sample, SeenAlike, Function.update_of_ne hsep.1, Function.update_of_ne hsep.2]
          exact h
        have := ih _ _ h' hcs
        simpa only [List.map_cons, List.filter_cons, runCalls, List.zip_cons_cons, List.filterMap_cons, Bool.false_eq_true, if_false] using this
  have := key calls σ σ ⟨rfl, rfl⟩ hmine
  exact ⟨by simp only [SamplerObj.view, this.1.1, this.1.2], this.2⟩

/-- C112 (one bundle, two samplers). Samplers made from one bundle object are one sampler with two keys: after `sample` on `t`, everything read from `s` is what `t` left,
and `sample` on `s` then starts from there. -/
theorem C112_shared (env : Env F D d M O) (s t : SamplerObj F D d M O V) (h : SameBundle s t) (σ : Store F D d M O) (init : InitPos F d) (data : Data D) :
    (s.view (t.sample env σ init data).2).heap = ((t.view σ).sample env init data).2.heap ∧
    (s.view (t.sample env σ init data).2).heap = (t.view (t.sample env σ init data).2).heap := by
  simp [SamplerObj.sample, SamplerObj.view, h.1, h.2, Function.update_self]

/-- C112 (a bundle serves one run). Two samplers, with keys `k1` and `k2`, from one freshly constructed library bundle. After a complete run of the first, a run of the second (any start, any data,
complete or not) records nothing in the training buffers: the training samples read from the second sampler are those of the first. -/
theorem C112_training_samples (env : Env F D d M O) (c : BundleCfg F D d M O) (b : Bundle F D d M O) (hb : LibraryBundle c b) (σ : Store F D d M O) (rRef sRef : Ref)
    (n1 c1 n2 c2 : Nat) (k1 k2 : Key) (kw1 kw2 : List (String × V)) (init1 init2 : InitPos F d) (data1 data2 : Data D)
    (hrun : (runCalls env (σ.alloc b rRef sRef) [⟨SamplerObj.ofBundle n1 c1 k1 b rRef sRef kw1, init1, data1⟩]).1 = [.ok ()]) (name : String)
    (hn : name ∈ ["positions_training", "log_prob_training", "local_accs_training", "global_accs_training"]) :
    let s1 := SamplerObj.ofBundle n1 c1 k1 b rRef sRef kw1
    let s2 := SamplerObj.ofBundle n2 c2 k2 b rRef sRef kw2
    let after1 := (runCalls env (σ.alloc b rRef sRef) [⟨s1, init1, data1⟩]).2
    let after2 := (runCalls env (σ.alloc b rRef sRef) [⟨s1, init1, data1⟩, ⟨s2, init2, data2⟩]).2
    (s2.view after2).heap.res name = (s1.view after1).heap.res name := by
  intro s1 s2 after1 after2
  have hv : s1.view (σ.alloc b rRef sRef) = { nDim := n1, nChains := c1, rngKey := k1, heap := ⟨b.resources, b.strategies.cursors⟩, strategies := b.strategies.lookup, strategyOrder := some b.strategyOrder, attrs := setAttrs kw1 (fun _ => none) } := by
    simp [s1, SamplerObj.view, SamplerObj.ofBundle, Store.alloc]
  have hok : ((s1.view (σ.alloc b rRef sRef)).sample env init1 data1).1 = .ok () := by
    simpa [runCalls, SamplerObj.sample] using hrun
  obtain ⟨k, xs, hcomp, -⟩ := sample_completes env (s1.view (σ.alloc b rRef sRef)) ((s1.view (σ.alloc b rRef sRef)).sample env init1 data1).2 b.strategyOrder
    rfl init1 data1 (Prod.ext hok rfl)
  rw [hv] at hcomp
  have key := C11_training_rows_misplaced env c b hb data1 data2 k1 k2 init1.atleast2d init2.atleast2d _ hcomp b.strategyOrder [] (by simp) name hn
  have e1 : (s1.view after1).heap = ((s1.view (σ.alloc b rRef sRef)).sample env init1 data1).2.heap := by
    simp [after1, runCalls, SamplerObj.sample, SamplerObj.view, s1, SamplerObj.ofBundle]
  have e2 : (s2.view after1).heap = (s1.view after1).heap := rfl
  have e3 : (s2.view after2).heap = ((s2.view after1).sample env init2 data2).2.heap := by
    simp [after2, after1, runCalls, SamplerObj.sample, SamplerObj.view, s1, s2, SamplerObj.ofBundle]
  rw [e3, e1]
  have e4 : (s2.view after1).sample env init2 data2 = _ := rfl
  rw [hv] at e1
  have e5 : ((s2.view after1).sample env init2 data2).2.heap =
      (runOrder env b.strategies.lookup b.strategyOrder k2 init2.atleast2d data2 (s2.view after1).heap).2 := by
    simp only [Sampler.sample, show (s2.view after1).strategyOrder = some b.strategyOrder from rfl, show (s2.view after1).strategies = b.strategies.lookup from rfl,
      show (s2.view after1).rngKey = k2 from rfl]
    split <;> rename_i h <;> rw [h]
  rw [e5, e2, e1, hv]
  exact key

end FlowMC
