/-! Specification vocabulary: strict weak orders given by a Boolean comparator, as C++ `Compare` requires. -/

namespace BwTree

/-- C++ named requirement *Compare*: a strict weak order. -/
structure StrictWeak {α : Type} (lt : α → α → Bool) : Prop where
  irrefl : ∀ a, lt a a = false
  trans : ∀ a b c, lt a b = true → lt b c = true → lt a c = true
  incomp : ∀ a b c, lt a b = false → lt b a = false → lt b c = false → lt c b = false →
    lt a c = false ∧ lt c a = false

/-- The equality checker is the equivalence induced by the comparator. -/
def EqInduced {α : Type} (lt eq : α → α → Bool) : Prop :=
  ∀ a b, eq a b = true ↔ (lt a b = false ∧ lt b a = false)

end BwTree
