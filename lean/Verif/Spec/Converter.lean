import Verif.Model.Converter

/-! # Specification of chains of converters -/

namespace Verif.Spec

variable {α κ : Type _} [DecidableEq α]

/-- `c` is `d` or inherits from it. -/
inductive Sub (bases : α → List α) : α → α → Prop
  | refl {c : α} : Sub bases c c
  | step {c b d : α} : b ∈ bases c → Sub bases b d → Sub bases c d

/-- One conversion: the converter is registered with the class or a class it inherits from. -/
def Step (env : ClassEnv α κ) (c : α) (k : κ) (d : α) : Prop :=
  ∃ b, Sub env.bases c b ∧ Sub env.bases b env.moments ∧ (d, k) ∈ env.convs b

/-- A chain of conversions, in the order of application. -/
inductive Chain (env : ClassEnv α κ) (source : α) : List κ → α → Prop
  | nil : Chain env source [] source
  | snoc {path : List κ} {c d : α} {k : κ} :
      Chain env source path c → Step env c k d → Chain env source (path ++ [k]) d

/-- `issubclass` is what it should be, and the class `source` is a class of moments, in a finite set
`classes` of classes that contains everything registered. -/
structure ClassWf (env : ClassEnv α κ) (classes : List α) : Prop where
  issub : ∀ c d, env.issub c d = true ↔ Sub env.bases c d
  bases : ∀ c ∈ classes, ∀ b ∈ env.bases c, b ∈ classes
  convs : ∀ c ∈ classes, ∀ d k, (d, k) ∈ env.convs c → d ∈ classes
  /-- converters lead to classes of moments -/
  targets : ∀ c d k, (d, k) ∈ env.convs c → Sub env.bases d env.moments

end Verif.Spec
