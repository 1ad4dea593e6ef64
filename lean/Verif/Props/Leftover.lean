import Verif.Props.Trait
import Verif.Props.Texts
import Verif.Props.Hall

/-!
# Small functions not reached by other statements (C03, C21, C45, C73, C74)
-/

namespace RA
open Spec TensorKey TensorBasis

/-! ## C03: `max_degree`, `size_mask` -/

/-- C03.  `TensorBasis::max_degree()` is the greatest degree of a key: exactly the words up to that length have one. -/
theorem C03_max_degree (p : Profile) (N : Nat) (h1 : 1 ≤ N) (hN : N < 2 ^ 32) (w : List Nat) (hw : ValidWord N w) :
    (∃ k, fromLetters p N w = .ok k) ↔ w.length ≤ TensorBasis.maxDegree N := by
  constructor
  · rintro ⟨k, hk⟩
    by_contra hc
    have := (C03_max_depth N h1 hN).2.2 p w (by unfold TensorBasis.maxDegree at hc; omega)
    rw [this] at hk
    cases hk
  · intro h
    exact ⟨_, fromLetters_ok p N h1 hN w hw h⟩

example := C03_max_degree .debug 5 (by omega) (by omega) [5, 1, 2] (by decide)

/-- C03.  For up to 2^31 - 1 letters `size_mask()` is a mask of at least one bit above the data of every key. -/
theorem C03_size_mask (p : Profile) (N : Nat) (h1 : 1 ≤ N) (hN : N < 2 ^ 31) :
    ∃ m, TensorKey.sizeMask p N = .ok m ∧ 2 ^ 63 ≤ m ∧ m < 2 ^ 64 ∧
      ∀ w k, ValidWord N w → w.length ≤ maxDepth N → fromLetters p N w = .ok k → k.data &&& m = 0 := by
  have hb : bitsPerLetter N ≤ 31 := by
    have := constLogn_lt_of_lt h1 hN
    unfold bitsPerLetter
    omega
  have hb1 : 1 ≤ bitsPerLetter N := by unfold bitsPerLetter; omega
  have hq : 2 ≤ (64 - 1) / bitsPerLetter N := (Nat.le_div_iff_mul_le (by omega)).2 (by omega)
  have hs1 : 1 ≤ sizeBits N := by
    unfold sizeBits
    rw [constLogn_ge _ hq]
    omega
  have hs2 : sizeBits N ≤ 5 := by
    have h63 : (64 - 1) / bitsPerLetter N ≤ 63 := Nat.div_le_self _ _
    have := constLogn_lt_of_lt (n := (64 - 1) / bitsPerLetter N) (k := 6) (by omega) (by omega)
    unfold sizeBits
    omega
  refine ⟨_, makeMask_ok p (sizeBits N) (64 - sizeBits N) (by omega) (by omega) (by omega), ?_, ?_, ?_⟩
  · obtain h | h | h | h | h : sizeBits N = 1 ∨ sizeBits N = 2 ∨ sizeBits N = 3 ∨ sizeBits N = 4 ∨ sizeBits N = 5 := by omega
    all_goals rw [h]; decide
  · obtain h | h | h | h | h : sizeBits N = 1 ∨ sizeBits N = 2 ∨ sizeBits N = 3 ∨ sizeBits N = 4 ∨ sizeBits N = 5 := by omega
    all_goals rw [h]; decide
  · intro w k hw hl hk
    rw [fromLetters_ok p N h1 (by omega) w hw hl] at hk
    cases hk
    have hd : wordData (bitsPerLetter N) w < 2 ^ (64 - sizeBits N) :=
      Nat.lt_of_lt_of_le (wordData_lt (Nat.le_of_lt (lt_two_pow_bpl N h1)) hw) (Nat.pow_le_pow_right (by omega)
        (Nat.le_trans (Nat.mul_le_mul_right _ hl) (Nat.div_mul_le_self _ _)))
    show wordData (bitsPerLetter N) w &&& _ = 0
    apply Nat.eq_of_testBit_eq
    intro i
    rw [Nat.testBit_and, Nat.testBit_shiftLeft, Nat.zero_testBit]
    by_cases hi : 64 - sizeBits N ≤ i
    · rw [Nat.testBit_lt_two_pow (Nat.lt_of_lt_of_le hd (Nat.pow_le_pow_right (by omega) hi))]
      rfl
    · simp [hi]

example := C03_size_mask .debug 7 (by omega) (by omega)

/-- C03.  For more letters it does not exist: the shift overflows. -/
theorem C03_size_mask_overflow (N : Nat) (hN : 2 ^ 31 ≤ N) (hN' : N < 2 ^ 32) : TensorKey.sizeMask .debug N = .panic := by
  have hb : bitsPerLetter N = 32 := by
    have h1 := constLogn_spec N (by omega)
    have h2 := constLogn_lt_of_lt (n := N) (k := 32) (by omega) hN'
    have h3 : ¬ constLogn N < 31 := fun h => by
      have := Nat.pow_le_pow_right (n := 2) (by omega) (show constLogn N + 1 ≤ 31 by omega)
      omega
    unfold bitsPerLetter
    omega
  have hs : sizeBits N = 0 := by
    unfold sizeBits
    rw [hb]
    exact constLogn_lt _ (by decide)
  unfold TensorKey.sizeMask
  rw [hs]
  decide +kernel

example := C03_size_mask_overflow (2 ^ 31) (by omega) (by omega)

/-! ## C45: the empty Hall key -/

/-- C45.  `HallKey::new()` is the only key that is not valid; it is no letter and no key of a letter, and has no index in debug builds. -/
theorem C45_new (p : Profile) :
    (∀ k, Hall.Key.isValid k = false ↔ k = Hall.Key.new) ∧ Hall.Key.isLetter p Hall.Key.new = .ok false ∧
      Hall.Key.toIndex .debug Hall.Key.new = .panic ∧
      ∀ N l, 1 ≤ l → l ≤ N → l < 2 ^ 18 → Hall.Key.fromLetter p N l ≠ .ok Hall.Key.new := by
  refine ⟨fun k => by simp [Hall.Key.isValid, Hall.Key.new], by cases p <;> decide +kernel, by decide +kernel, ?_⟩
  intro N l h1 h2 h3 h
  obtain ⟨k, hk, hv, _⟩ := C45_from_letter p N l h1 h2 h3
  rw [h] at hk
  cases hk
  exact absurd hv (by decide)

example := (C45_new .release).2.2.2 4 3 (by omega) (by omega) (by omega)

/-! ## C73: `new` and `==` of wrapped vectors -/

/-- C73 for the empty wrapped vector: adding it on either side changes no coefficient. -/
theorem C73_new_partial {K S : Type} [Field S] (C : Coeff S S) (hC : C.IsField) (B : Basis K) (a : Dense S) :
    Gives (fun _ => True) (fun w : VectorWrapper (Dense S) => denseCo B w.inner)
      (VectorWrapper.add (Dense.ops C B) (VectorWrapper.new (Dense.ops C B)) (VectorWrapper.fromInner a)) (denseCo B a) ∧
    Gives (fun _ => True) (fun w : VectorWrapper (Dense S) => denseCo B w.inner)
      (VectorWrapper.add (Dense.ops C B) (VectorWrapper.fromInner a) (VectorWrapper.new (Dense.ops C B))) (denseCo B a) := by
  have hz : ∀ k, denseCo B (Dense.new : Dense S) k = 0 := by
    intro k
    unfold denseCo
    cases B.keyToIndex k <;> simp [Dense.new, Dense.ofVec]
  have h1 := (C73_dense_partial C hC B Dense.new a 0 trivial trivial).1
  have h2 := (C73_dense_partial C hC B a Dense.new 0 trivial trivial).1
  exact ⟨h1.congr fun k => by rw [hz, zero_add], h2.congr fun k => by rw [hz, add_zero]⟩

example := C73_new_partial (fieldCoeff ℚ) (fieldCoeff_isField ℚ) (tensorBasis .debug 2) (.ofVec [1, 2, 3])

/-- C21, exactly when dense vectors compare equal: they have the same number of entries and the same coefficient at every key. -/
theorem C21_eq_iff_partial {K S R : Type} (C : Coeff S R) (B : Basis K) (hE : C.EqLawful) (a b : Dense S)
    (hB : ∀ i, i < a.size → ∃ k, B.keyToIndex k = .ok i) :
    (Dense.ops C B).eq a b = true ↔ a.size = b.size ∧ ∀ k, (Dense.ops C B).get a k = (Dense.ops C B).get b k := by
  refine ⟨C21_eq_sound_partial C B hE a b, fun ⟨hs, hg⟩ => (eq_iff_data C B hE a b).2 ?_⟩
  unfold Dense.size at hs
  refine List.ext_getElem? fun i => ?_
  by_cases hi : i < a.data.length
  · obtain ⟨k, hk⟩ := hB i hi
    have h := hg k
    change Dense.get B a k = Dense.get B b k at h
    unfold Dense.get at h
    rw [hk] at h
    exact Res.ok.inj h
  · rw [List.getElem?_eq_none (by omega), List.getElem?_eq_none (by omega)]

example := C21_eq_iff_partial intCoeff (tensorBasis .debug 2) intCoeff_eqLawful (.ofVec [1, 2, 3]) (.ofBorrowed [1, 2, 4])
  (fun i hi => ⟨keyOf 2 (indexWord 2 i), by
    have h : i = 0 ∨ i = 1 ∨ i = 2 := by change i < 3 at hi; omega
    rcases h with rfl | rfl | rfl <;> decide +kernel⟩)

/-- C73.  Wrapped dense vectors compare equal exactly when they have the same number of entries and the same coefficient at every key. -/
theorem C73_eq_partial {K S R : Type} (C : Coeff S R) (B : Basis K) (hE : C.EqLawful) (a b : Dense S)
    (hB : ∀ i, i < a.size → ∃ k, B.keyToIndex k = .ok i) :
    VectorWrapper.eq (Dense.ops C B) (.fromInner a) (.fromInner b) = true ↔
      a.size = b.size ∧ ∀ k, (Dense.ops C B).get a k = (Dense.ops C B).get b k := C21_eq_iff_partial C B hE a b hB

example := C73_eq_partial intCoeff (tensorBasis .debug 2) intCoeff_eqLawful (.ofVec [7]) (.ofBorrowed [7])
  (fun i hi => ⟨keyOf 2 [], by obtain rfl : i = 0 := by change i < 1 at hi; omega
                               decide +kernel⟩)

/-! ## C74: causes and conversions of errors -/

/-- C74.  Exactly the errors that wrap another one have a cause, namely that one, whose text ends the text of the error. -/
theorem C74_cause (e : Hall.AnyError) (c : String) :
    (e.cause = some c ↔ e = .other c) ∧ (e.cause = some c → c.toList <:+ e.toText.toList) := by
  have h : e.cause = some c ↔ e = .other c := by cases e <;> simp [Hall.AnyError.cause]
  refine ⟨h, fun hc => ?_⟩
  rw [h.1 hc]
  exact ⟨_, by unfold Hall.AnyError.toText; rw [String.toList_append]⟩

example := (C74_cause (.other "disk full") "disk full").2 rfl

/-- C74.  The two errors of a degree range map have different texts, but as errors of a Hall set they become the same. -/
theorem C74_map_errors (e e' : Hall.MapError) :
    (e.toText = e'.toText ↔ e = e') ∧ (Hall.AnyError.set (.ofMapError e)).toText = (Hall.AnyError.set (.ofMapError e')).toText := by
  refine ⟨?_, rfl⟩
  cases e <;> cases e' <;> simp [Hall.MapError.toText]

example := (C74_map_errors .mapIsEmpty .degreeOutOfBounds).2

end RA
