import Verif.Model.Shared
/-
Specification vocabulary for C112: several samplers in one program.
-/
namespace FlowMC
variable {F D : Type} {d : Nat} {M O V : Type}

/-- Two samplers made from separately constructed dictionaries. -/
def Spec.Separate (s t : SamplerObj F D d M O V) : Prop := s.resourcesRef ≠ t.resourcesRef ∧ s.strategiesRef ≠ t.strategiesRef

/-- Two samplers made from the same bundle object (or the same two dictionaries). -/
def Spec.SameBundle (s t : SamplerObj F D d M O V) : Prop := s.resourcesRef = t.resourcesRef ∧ s.strategiesRef = t.strategiesRef

/-- Two stores look the same to `s`. -/
def Spec.SeenAlike (s : SamplerObj F D d M O V) (σ τ : Store F D d M O) : Prop :=
  σ.resources s.resourcesRef = τ.resources s.resourcesRef ∧ σ.cursors s.strategiesRef = τ.cursors s.strategiesRef

end FlowMC
