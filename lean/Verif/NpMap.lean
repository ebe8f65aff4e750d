import Verif.Np

/-! # Applying a function to all entries of an array -/

namespace Verif
namespace NDArray

/-- The entrywise image of an array. -/
def mapArr {R K : Type} (f : R → K) (a : NDArray R) : NDArray K := ⟨a.shape, a.data.map f⟩

end NDArray
end Verif
