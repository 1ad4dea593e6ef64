import Verif.Model.Wrapper
import Verif.Model.Algebra
import Verif.Model.Float
import Verif.Model.Hall
import Verif.Props.Hall

/-!
# The unit tests of the crate, run on the model

Not part of the claims: a check that the model says of each of the crate's own `#[test]` functions what the crate's author wrote down.  Each example cites
the test; it is stated in both build profiles.  Every test passes on the model.
-/

namespace RA
namespace Conformance
open TensorKey TensorBasis Spec Hall

/-- `assert_eq!` on two fallible values of the same type: both must be there and be equal. -/
def assertEq {α : Type} (eq : α → α → Bool) (a b : Res α) : Bool :=
  match a, b with
  | .ok x, .ok y => eq x y
  | _, _ => false

/-- `assert_eq!` with the derived equality. -/
def same {α : Type} [DecidableEq α] (a b : Res α) : Bool := assertEq (fun x y => decide (x = y)) a b

/-- The data of a key (`key.data()`). -/
def dataOf (k : Res TensorKey) : Res Nat := do return (← k).data

/-- tensor_key.rs:246-250 -/
example : ∀ p : Profile, same (makeMask p 3 0) (.ok 0b111) = true := by
  intro p; cases p <;> decide +kernel

/-- tensor_key.rs:252-256 -/
example : ∀ p : Profile, same (makeMask p 3 5) (.ok 0b11100000) = true := by
  intro p; cases p <;> decide +kernel

/-- tensor_key.rs:258-262 -/
example : ∀ p : Profile, same (makeMask p 12 52) (.ok 0xFFF0000000000000) = true := by
  intro p; cases p <;> decide +kernel

/-- tensor_key.rs:264-278 -/
example : sizeBits 2 = 4 ∧ sizeBits 5 = 4 ∧ sizeBits 9 = 3 ∧ sizeBits 17 = 3 ∧ sizeBits 33 = 3 ∧ sizeBits 3 = 4 := by decide +kernel

/-- tensor_key.rs:280-292 -/
example : ∀ p : Profile, same (sizeMask p 3) (.ok 0xF000000000000000) = true ∧
    same (letterMask p 3) (.ok 0b11) = true := by
  intro p; cases p <;> decide +kernel

/-- tensor_key.rs:294-298 -/
example : bitsPerLetter 3 = 2 := by decide +kernel

/-- tensor_key.rs:300-306 -/
example : ∀ p : Profile, same (dataOf (fromLetter p 1)) (.ok 0) = true ∧
    same (dataOf (fromLetter p 2)) (.ok 1) = true ∧
    same (dataOf (fromLetter p 3)) (.ok 2) = true := by
  intro p; cases p <;> decide +kernel

/-- tensor_key.rs:308-316 -/
example : ∀ p : Profile, same (dataOf (fromLetters p 3 [1, 2, 1])) (.ok 0b000100) = true := by
  intro p; cases p <;> decide +kernel

/-- tensor_key.rs:318-327 -/
example : ∀ p : Profile, same (dataOf (do concatenate p 3 (← fromLetter p 3) (← fromLetter p 1))) (.ok 8) = true := by
  intro p; cases p <;> decide +kernel

/-- tensor_key.rs:329-335 -/
example : ∀ p : Profile, same (do return (← fromLetters p 3 [1, 2, 1, 2, 3]).size) (.ok 5) = true ∧
    same (do toLetters p 3 (← fromLetters p 3 [1, 2, 1, 2, 3])) (.ok [3, 2, 1, 2, 1]) = true := by
  intro p; cases p <;> decide +kernel

/-- tensor_key.rs:337-359 -/
example : ∀ p : Profile, same (.ok TensorKey.new) (.ok TensorKey.new) = true ∧
    same (.ok TensorKey.new) (fromLetter p 1) = false ∧
    same (fromLetter p 1) (fromLetter p 2) = false := by
  intro p; cases p <;> decide +kernel

/-- tensor_key.rs:364-373, the four calls of `next` -/
example : ∀ p : Profile, same (do
      let k ← fromLetters p 3 [1, 2, 3]
      let a ← lettersNext p 3 k 0
      let b ← lettersNext p 3 k a.2
      let c ← lettersNext p 3 k b.2
      let d ← lettersNext p 3 k c.2
      return (a.1, b.1, c.1, d.1)) (.ok (some 1, some 2, some 3, none)) = true := by
  intro p; cases p <;> decide +kernel

/-- tensor_basis/mod.rs:152-158 -/
example : ∀ p : Profile, same (indexToKey p 3 0) (.ok TensorKey.new) = true := by
  intro p; cases p <;> decide +kernel

/-- tensor_basis/mod.rs:160-168 -/
example : ∀ p : Profile, same (indexToKey p 3 1) (fromLetter p 1) = true ∧
    same (indexToKey p 3 2) (fromLetter p 2) = true ∧
    same (indexToKey p 3 3) (fromLetter p 3) = true := by
  intro p; cases p <;> decide +kernel

/-- tensor_basis/mod.rs:170-209 -/
example : ∀ p : Profile, same (indexToKey p 3 4) (fromLetters p 3 [1, 1]) = true ∧
    same (indexToKey p 3 5) (fromLetters p 3 [1, 2]) = true ∧
    same (indexToKey p 3 6) (fromLetters p 3 [1, 3]) = true ∧
    same (indexToKey p 3 7) (fromLetters p 3 [2, 1]) = true ∧
    same (indexToKey p 3 8) (fromLetters p 3 [2, 2]) = true ∧
    same (indexToKey p 3 9) (fromLetters p 3 [2, 3]) = true ∧
    same (indexToKey p 3 10) (fromLetters p 3 [3, 1]) = true ∧
    same (indexToKey p 3 11) (fromLetters p 3 [3, 2]) = true ∧
    same (indexToKey p 3 12) (fromLetters p 3 [3, 3]) = true := by
  intro p; cases p <;> decide +kernel

deriving instance DecidableEq for Res

/-- tensor_basis/mod.rs:211-235 -/
example : ∀ p : Profile, (do return compare (← fromLetters p 3 [1, 2, 3]) (← fromLetters p 3 [1, 2])) = Res.ok Ordering.gt ∧
    (do return compare (← fromLetters p 3 [1, 2]) (← fromLetters p 3 [1, 2, 3])) = Res.ok Ordering.lt ∧
    (do return compare (← fromLetters p 3 [1, 2, 3]) (← fromLetters p 3 [2, 1, 3])) = Res.ok Ordering.lt ∧
    (do return compare (← fromLetters p 3 [2, 1, 3]) (← fromLetters p 3 [1, 2, 3])) = Res.ok Ordering.gt ∧
    (do return compare (← fromLetters p 3 [1, 2, 3]) (← fromLetters p 3 [1, 2, 3])) = Res.ok Ordering.eq := by
  intro p; cases p <;> decide +kernel

/-- tensor_basis/mod.rs:238-254 -/
example : ∀ p : Profile, same (keyToIndex p 3 TensorKey.new) (.ok 0) = true ∧
    same (do keyToIndex p 3 (← fromLetter p 1)) (.ok 1) = true ∧
    same (do keyToIndex p 3 (← fromLetter p 2)) (.ok 2) = true ∧
    same (do keyToIndex p 3 (← fromLetter p 3)) (.ok 3) = true := by
  intro p; cases p <;> decide +kernel

/-- tensor_basis/mod.rs:256-277 -/
example : ∀ p : Profile, same (do keyToIndex p 3 (← fromLetters p 3 [1, 1])) (.ok 4) = true ∧
    same (do keyToIndex p 3 (← fromLetters p 3 [1, 2])) (.ok 5) = true ∧
    same (do keyToIndex p 3 (← fromLetters p 3 [1, 3])) (.ok 6) = true ∧
    same (do keyToIndex p 3 (← fromLetters p 3 [2, 1])) (.ok 7) = true ∧
    same (do keyToIndex p 3 (← fromLetters p 3 [2, 2])) (.ok 8) = true ∧
    same (do keyToIndex p 3 (← fromLetters p 3 [2, 3])) (.ok 9) = true ∧
    same (do keyToIndex p 3 (← fromLetters p 3 [3, 1])) (.ok 10) = true ∧
    same (do keyToIndex p 3 (← fromLetters p 3 [3, 2])) (.ok 11) = true ∧
    same (do keyToIndex p 3 (← fromLetters p 3 [3, 3])) (.ok 12) = true := by
  intro p; cases p <;> decide +kernel

/-- tensor_basis/mod.rs:279-342 -/
example : ∀ p : Profile, same (do keyToIndex p 3 (← fromLetters p 3 [1, 1, 1])) (.ok 13) = true ∧
    same (do keyToIndex p 3 (← fromLetters p 3 [1, 1, 2])) (.ok 14) = true ∧
    same (do keyToIndex p 3 (← fromLetters p 3 [1, 1, 3])) (.ok 15) = true ∧
    same (do keyToIndex p 3 (← fromLetters p 3 [1, 2, 1])) (.ok 16) = true ∧
    same (do keyToIndex p 3 (← fromLetters p 3 [1, 2, 2])) (.ok 17) = true ∧
    same (do keyToIndex p 3 (← fromLetters p 3 [1, 2, 3])) (.ok 18) = true ∧
    same (do keyToIndex p 3 (← fromLetters p 3 [1, 3, 1])) (.ok 19) = true ∧
    same (do keyToIndex p 3 (← fromLetters p 3 [1, 3, 2])) (.ok 20) = true ∧
    same (do keyToIndex p 3 (← fromLetters p 3 [1, 3, 3])) (.ok 21) = true ∧
    same (do keyToIndex p 3 (← fromLetters p 3 [2, 1, 1])) (.ok 22) = true ∧
    same (do keyToIndex p 3 (← fromLetters p 3 [2, 1, 2])) (.ok 23) = true ∧
    same (do keyToIndex p 3 (← fromLetters p 3 [2, 1, 3])) (.ok 24) = true ∧
    same (do keyToIndex p 3 (← fromLetters p 3 [2, 2, 1])) (.ok 25) = true ∧
    same (do keyToIndex p 3 (← fromLetters p 3 [2, 2, 2])) (.ok 26) = true ∧
    same (do keyToIndex p 3 (← fromLetters p 3 [2, 2, 3])) (.ok 27) = true ∧
    same (do keyToIndex p 3 (← fromLetters p 3 [2, 3, 1])) (.ok 28) = true ∧
    same (do keyToIndex p 3 (← fromLetters p 3 [2, 3, 2])) (.ok 29) = true ∧
    same (do keyToIndex p 3 (← fromLetters p 3 [2, 3, 3])) (.ok 30) = true ∧
    same (do keyToIndex p 3 (← fromLetters p 3 [3, 1, 1])) (.ok 31) = true ∧
    same (do keyToIndex p 3 (← fromLetters p 3 [3, 1, 2])) (.ok 32) = true ∧
    same (do keyToIndex p 3 (← fromLetters p 3 [3, 1, 3])) (.ok 33) = true ∧
    same (do keyToIndex p 3 (← fromLetters p 3 [3, 2, 1])) (.ok 34) = true ∧
    same (do keyToIndex p 3 (← fromLetters p 3 [3, 2, 2])) (.ok 35) = true ∧
    same (do keyToIndex p 3 (← fromLetters p 3 [3, 2, 3])) (.ok 36) = true ∧
    same (do keyToIndex p 3 (← fromLetters p 3 [3, 3, 1])) (.ok 37) = true ∧
    same (do keyToIndex p 3 (← fromLetters p 3 [3, 3, 2])) (.ok 38) = true ∧
    same (do keyToIndex p 3 (← fromLetters p 3 [3, 3, 3])) (.ok 39) = true := by
  intro p; cases p <;> decide +kernel

/-- key_iterator.rs:75-80 -/
example : ∀ p : Profile, same (do return (← BasisIter.next p 3 (BasisIter.new 3)).1) (.ok (some TensorKey.new)) = true := by
  intro p; cases p <;> decide +kernel

/-- key_iterator.rs:82-91 -/
example : ∀ p : Profile, same (do
      let a ← BasisIter.next p 3 (BasisIter.startingFrom 3 (← fromLetter p 1))
      let b ← BasisIter.next p 3 a.2
      let c ← BasisIter.next p 3 b.2
      return [a.1, b.1, c.1]) (do return [some (← fromLetter p 1), some (← fromLetter p 2), some (← fromLetter p 3)]) = true := by
  intro p; cases p <;> decide +kernel

/-- key_iterator.rs:93-101 -/
example : ∀ p : Profile, same (do
      let a ← BasisIter.next p 3 (BasisIter.startingFrom 3 (← fromLetter p 3))
      let b ← BasisIter.next p 3 a.2
      return [a.1, b.1]) (do return [some (← fromLetter p 3), some (← fromLetters p 3 [1, 1])]) = true := by
  intro p; cases p <;> decide +kernel

/-- key_iterator.rs:104-111 -/
example : ∀ p : Profile, same (do
      let a ← BasisIter.next p 3 (BasisIter.startingFrom 3 (← fromLetters p 3 [1, 3]))
      let b ← BasisIter.next p 3 a.2
      return [a.1, b.1]) (do return [some (← fromLetters p 3 [1, 3]), some (← fromLetters p 3 [2, 1])]) = true := by
  intro p; cases p <;> decide +kernel

/-- `assert_eq!(a.as_slice(), b.as_slice())` for floating-point vectors. -/
def sameSlice (F : FloatFmt) (a b : Res (Dense Fl)) : Bool := assertEq (Dense.eq (floatCoeff F)) a b

/-- The number as a float (exact for the small integers of the tests). -/
def fl (i : Int) : Fl := if i = 0 then .zero false else .fin i

/-- `DenseVec::from` of the given numbers followed by zeros up to length 255. -/
def padded (l : List Int) : Res (Dense Fl) := .ok (Dense.ofVec (vecResize (l.map fl) 255 (.zero false)))

/-- `from_iterator` when the order after sorting is known. -/
theorem fromIterator_sorted {K S R : Type} (C : Coeff S R) (B : Basis K) (items : List (K × S)) (vec srt : List (Nat × S))
    (hv : (items.mapM fun e => do
      let i ← B.keyToIndex e.1
      return (i, e.2)) = Res.ok vec)
    (hs : vec.mergeSort (fun a b => decide (a.1 ≤ b.1)) = srt) :
    Dense.fromIterator C B items = (match srt.getLast? with
      | none => return Dense.new
      | some last => do
        let dim ← B.dimForIndex last.1
        srt.foldlM (Dense.fromIteratorStep C) (Dense.fromDimension C dim)) := by
  unfold Dense.fromIterator
  rw [hv, Res.bind_ok, hs]
  cases srt.getLast? <;> rfl

/-- `DenseVec` of simple_dense_vector.rs:441. -/
abbrev denseVec : VecOps (Dense Fl) Nat Fl Fl := Dense.ops (floatCoeff .f32) integerBasis

/-- simple_dense_vector.rs:445-459 -/
example : sameSlice .f32 (Dense.fromIterator (floatCoeff .f32) integerBasis [(0, fl 0), (1, fl 1), (2, fl 2), (3, fl 3)]) (padded [0, 1, 2, 3]) = true := by 
  rw [fromIterator_sorted (floatCoeff .f32) integerBasis _ _ _ rfl (by simp [List.mergeSort, List.MergeSort.Internal.splitInTwo]; rfl)]
  decide +kernel

/-- simple_dense_vector.rs:461-475 -/
example : sameSlice .f32 (Dense.fromIterator (floatCoeff .f32) integerBasis [(0, fl 0), (1, fl 1), (1, fl 1), (2, fl 2), (3, fl 3)]) (padded [0, 2, 2, 3]) = true := by 
  rw [fromIterator_sorted (floatCoeff .f32) integerBasis _ _ _ rfl (by simp [List.mergeSort, List.MergeSort.Internal.splitInTwo]; rfl)]
  decide +kernel

/-- simple_dense_vector.rs:477-491 -/
example : sameSlice .f32 (Dense.fromIterator (floatCoeff .f32) integerBasis [(3, fl 3), (1, fl 1), (0, fl 0), (2, fl 2)]) (padded [0, 1, 2, 3]) = true := by 
  rw [fromIterator_sorted (floatCoeff .f32) integerBasis _ _ _ rfl (by simp [List.mergeSort, List.MergeSort.Internal.splitInTwo]; rfl)]
  decide +kernel

/-- simple_dense_vector.rs:493-508 -/
example : sameSlice .f32 (do denseVec.add (← denseVec.fromKey 0) (← denseVec.fromKey 1)) (padded [1, 1]) = true := by decide +kernel

/-- simple_dense_vector.rs:510-525 -/
example : sameSlice .f32 (do denseVec.sub (← denseVec.fromKey 0) (← denseVec.fromKey 1)) (padded [1, -1]) = true := by decide +kernel

/-- simple_dense_vector.rs:527-546 (`fill_with` on an empty vector leaves it empty) -/
example : sameSlice .f32 (denseVec.scalarLmultiply (Dense.ofVec []) (fl 2)) (.ok (Dense.ofVec [])) = true := by decide +kernel

/-- free_tensor/implementation/dense.rs, `test_tensor_multiplication_two_letters` -/
example : ∀ p : Profile, sameSlice .f64 (do
      let lhs ← (DenseAlg.ops (floatCoeff .f64) p 3).fromKey (← fromLetter p 1)
      let rhs ← (DenseAlg.ops (floatCoeff .f64) p 3).fromKey (← fromLetter p 2)
      (DenseAlg.ops (floatCoeff .f64) p 3).multiply lhs rhs (some 2))
      (do (DenseAlg.ops (floatCoeff .f64) p 3).fromKey (← fromLetters p 3 [1, 2])) = true := by
  intro p; cases p <;> decide +kernel

/-- wrapper.rs, `test_add_vector_wrapper` -/
example : ∀ p : Profile, assertEq (VectorWrapper.eq (Dense.ops (floatCoeff .f64) (tensorBasis p 2)))
      (do VectorWrapper.add (Dense.ops (floatCoeff .f64) (tensorBasis p 2)) (← (VectorWrapper.from (Dense.ops (floatCoeff .f64) (tensorBasis p 2)) [(TensorKey.new, fl (1)), (← fromLetter p 1, fl (2)), (← fromLetter p 2, fl (3))])) (← (VectorWrapper.from (Dense.ops (floatCoeff .f64) (tensorBasis p 2)) [(TensorKey.new, fl (-1)), (← fromLetter p 1, fl (-1)), (← fromLetter p 2, fl (-1))]))) (do (VectorWrapper.from (Dense.ops (floatCoeff .f64) (tensorBasis p 2)) [(TensorKey.new, fl (0)), (← fromLetter p 1, fl (1)), (← fromLetter p 2, fl (2))])) = true := by
  intro p
  have hf : ∀ a b c : Fl, (Dense.ops (floatCoeff .f64) (tensorBasis p 2)).fromIterator [(TensorKey.new, a), (⟨1, 0⟩, b), (⟨1, 1⟩, c)] =
      ([(0, a), (1, b), (2, c)].foldlM (Dense.fromIteratorStep (floatCoeff .f64)) (Dense.fromDimension (floatCoeff .f64) 3) : Res (Dense Fl)) := by
    intro a b c
    refine (fromIterator_sorted (floatCoeff .f64) (tensorBasis p 2) _ [(0, a), (1, b), (2, c)] [(0, a), (1, b), (2, c)] ?_ ?_).trans ?_
    · have h0 : keyToIndex p 2 TensorKey.new = .ok 0 := by cases p <;> rfl
      have h1 : keyToIndex p 2 ⟨1, 0⟩ = .ok 1 := by cases p <;> decide +kernel
      have h2 : keyToIndex p 2 ⟨1, 1⟩ = .ok 2 := by cases p <;> decide +kernel
      simp only [List.mapM_cons, List.mapM_nil, tensorBasis, h0, h1, h2, Res.bind_ok, Res.pure_eq]
    · simp [List.mergeSort, List.MergeSort.Internal.splitInTwo]
    · cases p <;> rfl
  rw [show fromLetter p 1 = .ok ⟨1, 0⟩ by cases p <;> rfl, show fromLetter p 2 = .ok ⟨1, 1⟩ by cases p <;> rfl]
  simp only [Res.bind_ok, VectorWrapper.from, hf]
  cases p <;> decide +kernel

/-- degree_range_map.rs:213-255 -/
example : ∀ p : Profile, (do
      let m ← Hall.RangeMap.new p 5 6
      return [m.get 0, m.get 1, m.get 2, m.get 3, m.get 4, m.get 5].map Except.toOption) =
    Res.ok [some 0, some 5, some 15, some 55, some 205, some 829] := by
  intro p
  have h : ∀ d ∈ List.range 6, Hall.hallSetSize p 5 d = .ok ([0, 5, 15, 55, 205, 829].getD d 0) := by
    intro d hd
    rw [List.mem_range] at hd
    obtain ⟨W, h1, h2⟩ := size_small p 5 5 (by omega) (by decide)
    have w1 := h1 1 (by omega) (by omega)
    have w2 := h1 2 (by omega) (by omega)
    have w3 := h1 3 (by omega) (by omega)
    have w4 := h1 4 (by omega) (by omega)
    have w5 := h1 5 (by omega) (by omega)
    unfold IsWitt at w1 w2 w3 w4 w5
    rw [wittSum_one] at w1
    rw [show (2 : Nat) = 2 ^ (0 + 1) from rfl, wittSum_prime_pow 5 2 0 Nat.prime_two] at w2
    rw [show (3 : Nat) = 3 ^ (0 + 1) from rfl, wittSum_prime_pow 5 3 0 Nat.prime_three] at w3
    rw [show (4 : Nat) = 2 ^ (1 + 1) from rfl, wittSum_prime_pow 5 2 1 Nat.prime_two] at w4
    rw [show wittSum 5 5 = (5 : Int) ^ 5 ^ (0 + 1) - (5 : Int) ^ 5 ^ 0 from wittSum_prime_pow 5 5 0 Nat.prime_five] at w5
    norm_num at w1 w2 w3 w4 w5
    rw [h2 d (by omega)]
    have hW : W 1 = 5 ∧ W 2 = 10 ∧ W 3 = 40 ∧ W 4 = 150 ∧ W 5 = 624 := by omega
    obtain ⟨e1, e2, e3, e4, e5⟩ := hW
    rcases (by omega : d = 0 ∨ d = 1 ∨ d = 2 ∨ d = 3 ∨ d = 4 ∨ d = 5) with rfl | rfl | rfl | rfl | rfl | rfl <;>
      simp [Finset.sum_Icc_succ_top, e1, e2, e3, e4, e5]
  rw [Hall.RangeMap.new, pushSizes_of_ok p 5 _ [] _ h]
  rfl

end Conformance
end RA
