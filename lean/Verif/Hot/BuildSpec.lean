import Verif.Hot.Build

/-! What an index should contain, independently of how it is built. -/
namespace Verif.Hot.Build

variable {K H V W : Type}

/-- The index holds exactly the rows computed from the source. -/
def IndexOf (gen : Gen K H V W) (src : K → Option V) (idx : H → Option W) : Prop :=
  ∀ h x, idx h = some x ↔ ∃ k v, src k = some v ∧ (h, x) ∈ gen k v

/-- Index rows tell which source row they come from, and no row is computed twice. -/
structure Sound (gen : Gen K H V W) (own : H → K) : Prop where
  owns : ∀ k v r, r ∈ gen k v → own r.1 = k
  once : ∀ k v, ((gen k v).map Prod.fst).Nodup

end Verif.Hot.Build
