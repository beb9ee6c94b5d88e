import Verif.Spec.FtdPre
/- What the post-customization needs. -/
namespace Verif.Ftd

/-- Who leaves later arrives later, on each road. -/
def LaterIsLater (roads : List (Nat × Nat × (Rat → Rat))) : Prop := ∀ r ∈ roads, ∀ τ τ', τ < τ' → τ + r.2.2 τ < τ' + r.2.2 τ'

end Verif.Ftd
