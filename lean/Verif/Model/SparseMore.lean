import Verif.Model.Sparse

/-!
# Iteration over sparse vectors: `src/vector/implementation/simple_sparse_vector.rs`
-/

namespace RA
namespace Sparse
variable {K S : Type}

/-- simple_sparse_vector.rs:60-72 `into_iter` of a reference: the pairs `HashMap::iter` gives. -/
def intoIter (a : Sparse K S) : List (K × S) := a.entries

/-- simple_sparse_vector.rs:49-51 `key`. -/
def itemKey (e : K × S) : K := e.1

/-- simple_sparse_vector.rs:53-55 `value`. -/
def itemValue (e : K × S) : S := e.2

end Sparse
end RA
