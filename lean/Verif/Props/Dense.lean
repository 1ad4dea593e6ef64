import Verif.Proofs.Dense
import Verif.Lawful

/-!
# Properties of the dense vector (C16-C25)

`Dense.ops C B` is the `Vector` implementation of `SimpleDenseVector` over a basis `B` with coefficients `C`.  No law is assumed of
`C` unless a theorem says so.
-/

namespace RA
open Spec TensorKey TensorBasis

/-! ## C16, C17: basis vectors -/

/-- C16.  `from_key_scalar(k, s)` is free of out-of-bounds accesses; the result has a coefficient for exactly the words of degree at most that of `k`:
`s` at `k`, zero elsewhere. -/
theorem C16_from_key_scalar {S R : Type} (C : Coeff S R) (p : Profile) (N : Nat) (h2 : 2 ≤ N) (hN : N < 2 ^ 32) (w : List Nat)
    (hw : ValidWord N w) (hl : w.length ≤ maxDepth N) (hp : N ^ (w.length + 1) < 2 ^ 64)
    (k : TensorKey) (hk : fromLetters p N w = .ok k) (s : S) :
    ∃ r, (Dense.ops C (tensorBasis p N)).fromKeyScalar k s = .ok r ∧ r.size = geomSum N (w.length + 1) ∧
      ∀ u ku, ValidWord N u → u.length ≤ maxDepth N → fromLetters p N u = .ok ku →
        (Dense.ops C (tensorBasis p N)).get r ku =
          .ok (if u = w then some s else if u.length ≤ w.length then some C.zero else none) := by
  rw [fromLetters_ok p N (by omega) hN w hw hl] at hk
  cases hk
  have hb := wordIndex_bounds hw
  have hd64 := deg_lt64 h2 hp
  have hdim : (tensorBasis p N).dimForKey (keyOf N w) = .ok (geomSum N (w.length + 1)) := by
    show vectorDimensionForKey p N (keyOf N w) = _
    unfold vectorDimensionForKey
    rw [show degree (keyOf N w) = w.length from rfl, addW_ok (by omega), Res.bind_ok, startOfDegree_ok p N h2 _ hp]
  have hidx : (tensorBasis p N).keyToIndex (keyOf N w) = .ok (wordIndex N w) := keyToIndex_keyOf p N (by omega) hN w hw hl
  refine ⟨Dense.ofVec ((List.replicate (geomSum N (w.length + 1)) C.zero).modify (wordIndex N w) fun _ => s), ?_, ?_, ?_⟩
  · exact Dense.fromKeyScalar_ok C _ hdim hidx hb.2 s
  · simp [Dense.size]
  · intro u ku hu hlu hku
    rw [fromLetters_ok p N (by omega) hN u hu hlu] at hku
    cases hku
    have hub := wordIndex_bounds hu
    show Dense.get _ _ _ = _
    unfold Dense.get
    rw [show (tensorBasis p N).keyToIndex (keyOf N u) = .ok (wordIndex N u) from keyToIndex_keyOf p N (by omega) hN u hu hlu,
      Res.bind_ok, Dense.ofVec_data, List.getElem?_modify, List.getElem?_replicate]
    by_cases huw : u = w
    · subst huw
      rw [if_pos hb.2]
      simp
    · have hne : ¬ wordIndex N w = wordIndex N u := fun h => huw (wordIndex_inj hu hw h.symm)
      simp only [if_neg hne, if_neg huw, id_map', Res.pure_eq]
      by_cases hlen : u.length ≤ w.length
      · have := geomSum_mono (N := N) (show u.length + 1 ≤ w.length + 1 by omega)
        rw [if_pos (by omega), if_pos hlen]
      · have := geomSum_mono (N := N) (show w.length + 1 ≤ u.length by omega)
        rw [if_neg (by omega), if_neg hlen]

/-- C16.  `from_key(k)` is `from_key_scalar(k, 1)`: coefficient 1 at the key and 0 at the others. -/
theorem C16_from_key {S R : Type} (C : Coeff S R) (p : Profile) (N : Nat) (h2 : 2 ≤ N) (hN : N < 2 ^ 32) (w : List Nat)
    (hw : ValidWord N w) (hl : w.length ≤ maxDepth N) (hp : N ^ (w.length + 1) < 2 ^ 64) (k : TensorKey) (hk : fromLetters p N w = .ok k) :
    ∃ r, (Dense.ops C (tensorBasis p N)).fromKey k = .ok r ∧ (Dense.ops C (tensorBasis p N)).fromKeyScalar k C.one = .ok r ∧
      r.size = geomSum N (w.length + 1) ∧
      ∀ u ku, ValidWord N u → u.length ≤ maxDepth N → fromLetters p N u = .ok ku →
        (Dense.ops C (tensorBasis p N)).get r ku =
          .ok (if u = w then some C.one else if u.length ≤ w.length then some C.zero else none) := by
  obtain ⟨r, h1, h2', h3⟩ := C16_from_key_scalar C p N h2 hN w hw hl hp k hk C.one
  exact ⟨r, h1, h1, h2', h3⟩

example : ∃ r, (Dense.ops intCoeff (tensorBasis .debug 3)).fromKey (keyOf 3 [2]) = .ok r ∧ r = .ofVec [0, 0, 1, 0] := by
  obtain ⟨r, h, -⟩ := C16_from_key intCoeff .debug 3 (by omega) (by omega) [2] (by decide) (by decide +kernel) (by decide) (keyOf 3 [2]) (by decide +kernel)
  have h' : (Dense.ops intCoeff (tensorBasis .debug 3)).fromKey (keyOf 3 [2]) = .ok (.ofVec [0, 0, 1, 0]) := by decide +kernel
  exact ⟨r, h, Res.ok.inj (h.symm.trans h')⟩

example : ∃ r, (Dense.ops intCoeff (tensorBasis .debug 3)).fromKeyScalar (keyOf 3 [2, 1, 3]) 7 = .ok r ∧
    (Dense.ops intCoeff (tensorBasis .debug 3)).get r (keyOf 3 [2, 1, 3]) = .ok (some 7) ∧
    (Dense.ops intCoeff (tensorBasis .debug 3)).get r (keyOf 3 [2, 1]) = .ok (some 0) ∧
    (Dense.ops intCoeff (tensorBasis .debug 3)).get r (keyOf 3 [1, 1, 1, 1]) = .ok none := by
  have hd : maxDepth 3 = 30 := by decide +kernel
  obtain ⟨r, h1, _, h3⟩ := C16_from_key_scalar intCoeff .debug 3 (by omega) (by omega) [2, 1, 3] (by decide)
    (by rw [hd]; decide) (by decide) _ (fromLetters_ok .debug 3 (by omega) (by omega) _ (by decide) (by rw [hd]; decide)) (7 : Int)
  have hk : ∀ u, ValidWord 3 u → u.length ≤ 4 → fromLetters .debug 3 u = .ok (keyOf 3 u) := fun u hu hl =>
    fromLetters_ok .debug 3 (by omega) (by omega) u hu (by rw [hd]; omega)
  exact ⟨r, h1, h3 _ _ (by decide) (by rw [hd]; decide) (hk _ (by decide) (by decide)),
    h3 _ _ (by decide) (by rw [hd]; decide) (hk _ (by decide) (by decide)),
    h3 _ _ (by decide) (by rw [hd]; decide) (hk _ (by decide) (by decide))⟩

/-- Keys obtainable through the public constructors and modifiers with arbitrary `u32` arguments. -/
inductive Buildable (p : Profile) (N : Nat) : TensorKey → Prop
  | new : Buildable p N TensorKey.new
  | fromLetter (l : Nat) (k : TensorKey) : l < 2 ^ 32 → fromLetter p l = .ok k → Buildable p N k
  | fromLetters (w : List Nat) (k : TensorKey) : (∀ l ∈ w, l < 2 ^ 32) → fromLetters p N w = .ok k → Buildable p N k
  | pushFront (l : Nat) (k k' : TensorKey) : l < 2 ^ 32 → Buildable p N k → pushFront p N k l = .ok k' → Buildable p N k'
  | concatenate (a b k : TensorKey) : Buildable p N a → Buildable p N b → concatenate p N a b = .ok k → Buildable p N k

/-- C17, full statement for one alphabet, profile and coefficient type. -/
def C17_from_key_safe_full {S R : Type} (C : Coeff S R) (p : Profile) (N : Nat) : Prop :=
  ∀ k s, Buildable p N k → (Dense.ops C (tensorBasis p N)).fromKeyScalar k s ≠ .ub

/-- C17, exactly when a one-letter key built by `from_letter(l)` is safe: the low `bits_per_letter` bits of `l - 1` must be below `NLETTERS`. -/
theorem C17_from_letter_exact {S R : Type} (C : Coeff S R) (p : Profile) (N : Nat) (h2 : 2 ≤ N) (hN : N < 2 ^ 32) (l : Nat)
    (hl1 : 1 ≤ l) (hl : l < 2 ^ 32) (s : S) :
    ∃ k, fromLetter p l = .ok k ∧
      ((l - 1) % 2 ^ bitsPerLetter N < N →
        ∃ r, (Dense.ops C (tensorBasis p N)).fromKeyScalar k s = .ok r ∧ r.size = N + 1 ∧
          r.data[(l - 1) % 2 ^ bitsPerLetter N + 1]? = some s) ∧
      (N ≤ (l - 1) % 2 ^ bitsPerLetter N → (Dense.ops C (tensorBasis p N)).fromKeyScalar k s = .ub) := by
  have hb32 := bpl_le N (by omega) hN
  have hb1 := bpl_pos N
  refine ⟨⟨1, l - 1⟩, by unfold fromLetter; rw [subW_ok hl1]; rfl, ?_⟩
  have hN2 : N ^ 2 < 2 ^ 64 := Nat.lt_of_lt_of_le (Nat.pow_lt_pow_left hN (by omega)) (by rw [← Nat.pow_mul])
  have hdim : (tensorBasis p N).dimForKey ⟨1, l - 1⟩ = .ok (N + 1) := by
    show vectorDimensionForKey p N ⟨1, l - 1⟩ = _
    unfold vectorDimensionForKey
    rw [show degree ⟨1, l - 1⟩ = 1 from rfl, addW_ok (by omega), Res.bind_ok, startOfDegree_ok p N h2 _ hN2]
    simp [geomSum, Nat.add_comm]
  have hm : (l - 1) % 2 ^ bitsPerLetter N < 2 ^ 32 := Nat.lt_of_le_of_lt (Nat.mod_le _ _) (by omega)
  have hm' : (l - 1) % 2 ^ bitsPerLetter N < 2 ^ 32 - 1 := Nat.lt_of_le_of_lt (Nat.mod_le _ _) (by omega)
  have hget : getLetter p N ⟨1, l - 1⟩ 0 = .ok ((l - 1) % 2 ^ bitsPerLetter N + 1) := by
    unfold getLetter getLetterUnadjusted
    rw [mulW_ok (by omega), Res.bind_ok, makeMask_ok p _ _ (by omega) (by omega) (by omega), Res.bind_ok]
    simp only [Nat.zero_mul, Res.bind_ok]
    rw [shrW_ok (by omega), Res.bind_ok]
    have := mask_extract (l - 1) (bitsPerLetter N) 0
    simp only [Nat.pow_zero, Nat.div_one] at this
    rw [this]
    simp only [Nat.mod_eq_of_lt hm, Res.pure_eq, Res.bind_ok]
    rw [addW_ok (by omega)]
  have hidx : (tensorBasis p N).keyToIndex ⟨1, l - 1⟩ = .ok ((l - 1) % 2 ^ bitsPerLetter N + 1) := by
    show keyToIndex p N ⟨1, l - 1⟩ = _
    unfold keyToIndex
    simp only [List.range_one, List.reverse_singleton, List.foldlM_cons, List.foldlM_nil]
    unfold keyToIndexStep
    rw [hget, mulW_ok (by omega)]
    simp only [Res.bind_ok, Nat.zero_mul]
    rw [addW_ok (by omega)]
    simp
  constructor
  · intro h
    refine ⟨Dense.ofVec ((List.replicate (N + 1) C.zero).modify ((l - 1) % 2 ^ bitsPerLetter N + 1) fun _ => s), ?_, ?_, ?_⟩
    · exact Dense.fromKeyScalar_ok C _ hdim hidx (by omega) s
    · simp [Dense.size]
    · rw [Dense.ofVec_data, List.getElem?_modify, List.getElem?_replicate, if_pos (by omega)]
      simp
  · intro h
    exact Dense.fromKeyScalar_ub C _ hdim hidx (by omega) s

example : ∃ k, fromLetter .debug 6 = .ok k ∧
    ((6 - 1) % 2 ^ bitsPerLetter 4 < 4 →
      ∃ r, (Dense.ops intCoeff (tensorBasis .debug 4)).fromKeyScalar k 7 = .ok r ∧ r.size = 4 + 1 ∧
        r.data[(6 - 1) % 2 ^ bitsPerLetter 4 + 1]? = some 7) ∧
    (4 ≤ (6 - 1) % 2 ^ bitsPerLetter 4 → (Dense.ops intCoeff (tensorBasis .debug 4)).fromKeyScalar k 7 = .ub) :=
  C17_from_letter_exact intCoeff .debug 4 (by omega) (by omega) 6 (by omega) (by omega) 7

/-- C17 is false for every alphabet of at least two letters, in both profiles: `from_key(from_letter(NLETTERS + 1))` writes out of bounds. -/
theorem C17_from_key_safe_refuted {S R : Type} (C : Coeff S R) (p : Profile) (N : Nat) (h2 : 2 ≤ N) (hN : N + 1 < 2 ^ 32) :
    ¬ C17_from_key_safe_full C p N := by
  intro h
  obtain ⟨k, hk, _, hub⟩ := C17_from_letter_exact C p N h2 (by omega) (N + 1) (by omega) hN C.one
  have hlt := lt_two_pow_bpl N (by omega)
  exact h k C.one (.fromLetter (N + 1) k hN hk) (hub (by rw [show N + 1 - 1 = N by omega, Nat.mod_eq_of_lt hlt]))

example : ¬ C17_from_key_safe_full intCoeff .release 5 := C17_from_key_safe_refuted intCoeff .release 5 (by omega) (by omega)

/-- C17, release builds: even a *valid* key within `max_depth` can be unsafe, because the dimension wraps around
(31 letters, the word of twelve letters 31). -/
theorem C17_valid_key_release_refuted {S R : Type} (C : Coeff S R) (s : S) :
    ∃ w k, ValidWord 31 w ∧ w.length ≤ maxDepth 31 ∧ fromLetters .release 31 w = .ok k ∧
      (Dense.ops C (tensorBasis .release 31)).fromKeyScalar k s = .ub := by
  have hd : maxDepth 31 = 12 := by decide +kernel
  have hv : ValidWord 31 (List.replicate 12 31) := by decide
  have hidx : (tensorBasis .release 31).keyToIndex (keyOf 31 (List.replicate 12 31)) = .ok (wordIndex 31 (List.replicate 12 31)) :=
    keyToIndex_keyOf .release 31 (by omega) (by omega) _ hv (by rw [hd]; decide)
  have hdim : (tensorBasis .release 31).dimForKey (keyOf 31 (List.replicate 12 31)) =
      .ok ((31 ^ 13 % 2 ^ 64 - 1) / 30) := by
    show vectorDimensionForKey .release 31 (keyOf 31 (List.replicate 12 31)) = _
    unfold vectorDimensionForKey
    rw [show degree (keyOf 31 (List.replicate 12 31)) = 12 from rfl, addW_ok (by omega), Res.bind_ok,
      startOfDegree_release_overflow 31 (12 + 1) (by omega) (by norm_num) (by norm_num)]
  refine ⟨_, _, hv, by rw [hd]; decide, fromLetters_ok .release 31 (by omega) (by omega) _ hv (by rw [hd]; decide), ?_⟩
  exact Dense.fromKeyScalar_ub C _ hdim hidx (by decide +kernel) s

example : ∃ w k, ValidWord 31 w ∧ w.length ≤ maxDepth 31 ∧ fromLetters .release 31 w = .ok k ∧
    (Dense.ops intCoeff (tensorBasis .release 31)).fromKeyScalar k 5 = .ub := C17_valid_key_release_refuted intCoeff 5

/-- C17, the part that holds: keys spelling a word over `1..NLETTERS` within `max_depth` whose dimension is representable.  Missing: the keys of the two
refutations above. -/
theorem C17_from_key_safe_partial {S R : Type} (C : Coeff S R) (p : Profile) (N : Nat) (h2 : 2 ≤ N) (hN : N < 2 ^ 32) (w : List Nat)
    (hw : ValidWord N w) (hl : w.length ≤ maxDepth N) (hp : N ^ (w.length + 1) < 2 ^ 64)
    (k : TensorKey) (hk : fromLetters p N w = .ok k) (s : S) :
    (Dense.ops C (tensorBasis p N)).fromKeyScalar k s ≠ .ub := by
  obtain ⟨r, hr, _⟩ := C16_from_key_scalar C p N h2 hN w hw hl hp k hk s
  rw [hr]; simp

example : (Dense.ops intCoeff (tensorBasis .release 3)).fromKeyScalar ⟨4, 96⟩ 5 ≠ .ub :=
  C17_from_key_safe_partial intCoeff .release 3 (by omega) (by omega) [2, 3, 1, 1] (by decide) (by decide +kernel) (by decide) _
    (by decide +kernel) 5

/-- C17, debug builds: every valid key is safe (an unrepresentable dimension panics instead). -/
theorem C17_from_key_safe_debug_partial {S R : Type} (C : Coeff S R) (N : Nat) (h2 : 2 ≤ N) (hN : N < 2 ^ 32) (w : List Nat)
    (hw : ValidWord N w) (hl : w.length ≤ maxDepth N) (k : TensorKey) (hk : fromLetters .debug N w = .ok k) (s : S) :
    (Dense.ops C (tensorBasis .debug N)).fromKeyScalar k s ≠ .ub := by
  by_cases hp : N ^ (w.length + 1) < 2 ^ 64
  · exact C17_from_key_safe_partial C .debug N h2 hN w hw hl hp k hk s
  · rw [fromLetters_ok .debug N (by omega) hN w hw hl] at hk
    cases hk
    have hmd := maxDepth_le N
    show Dense.fromKeyScalar C _ _ _ ≠ _
    unfold Dense.fromKeyScalar
    have : (tensorBasis .debug N).dimForKey (keyOf N w) = .panic := by
      show vectorDimensionForKey .debug N (keyOf N w) = _
      unfold vectorDimensionForKey
      rw [show degree (keyOf N w) = w.length from rfl, addW_ok (by omega), Res.bind_ok, startOfDegree_debug_overflow N _ (by omega)]
    rw [this]
    simp [Bind.bind, Res.bind]

example : (Dense.ops intCoeff (tensorBasis .debug 31)).fromKeyScalar ⟨12, 1115730488329206750⟩ 5 ≠ .ub :=
  C17_from_key_safe_debug_partial intCoeff 31 (by omega) (by omega) (List.replicate 12 31) (by decide) (by decide +kernel) _
    (by decide +kernel) 5

/-- C17, the basis of the crate's own dense-vector tests: key 255 is unsafe. -/
theorem C17_integer_basis_refuted {S R : Type} (C : Coeff S R) (s : S) :
    (Dense.ops C integerBasis).fromKeyScalar 255 s = .ub :=
  Dense.fromKeyScalar_ub C integerBasis (dim := 255) (i := 255) rfl rfl (by omega) s

example : (Dense.ops intCoeff integerBasis).fromKeyScalar 255 9 = .ub := C17_integer_basis_refuted intCoeff 9

/-! ## C18: building from an iterator -/

/-- The word a list of letters spells, restricted to the values given for it: `values items w` are the values listed for the word `w`, in list order. -/
def Spec.valuesOf {S : Type} (items : List (List Nat × S)) (w : List Nat) : List S :=
  (items.filter fun e => e.1 = w).map (·.2)

/-- C18.  `from_iterator` over the keys spelling the given words is memory-safe, stores exactly the words up to the largest degree present, and
the coefficient of each is the left-to-right sum, starting at zero, of the values listed for it.  Without any law on the coefficients. -/
theorem C18_from_iterator {S R : Type} (C : Coeff S R) (p : Profile) (N : Nat) (h2 : 2 ≤ N) (hN : N < 2 ^ 32)
    (items : List (List Nat × S)) (D : Nat) (hw : ∀ e ∈ items, ValidWord N e.1) (hD : ∀ e ∈ items, e.1.length ≤ D)
    (hex : ∃ e ∈ items, e.1.length = D) (hl : D ≤ maxDepth N) (hp : N ^ (D + 1) < 2 ^ 64)
    (keys : List (TensorKey × S)) (hkeys : items.mapM (fun e => (fun k => (k, e.2)) <$> fromLetters p N e.1) = .ok keys) :
    ∃ r, (Dense.ops C (tensorBasis p N)).fromIterator keys = .ok r ∧ r.size = geomSum N (D + 1) ∧
      ∀ u ku, ValidWord N u → u.length ≤ maxDepth N → fromLetters p N u = .ok ku →
        (Dense.ops C (tensorBasis p N)).get r ku =
          .ok (if u.length ≤ D then some ((Spec.valuesOf items u).foldl C.add C.zero) else none) := by
  have hmapM : items.mapM (fun e => (fun k => (k, e.2)) <$> fromLetters p N e.1) = .ok (items.map fun e => (keyOf N e.1, e.2)) := by
    clear hkeys hex
    induction items with
    | nil => rfl
    | cons e es ih =>
      rw [List.mapM_cons, fromLetters_ok p N (by omega) hN e.1 (hw e (by simp)) (Nat.le_trans (hD e (by simp)) hl),
        ih (fun e' h => hw e' (by simp [h])) (fun e' h => hD e' (by simp [h]))]
      rfl
  rw [hmapM] at hkeys
  cases hkeys
  have hd64 := deg_lt64 h2 hp
  let idx : TensorKey → Nat := fun k => match (tensorBasis p N).keyToIndex k with | .ok i => i | _ => 0
  have hidx : ∀ w, ValidWord N w → w.length ≤ maxDepth N → (tensorBasis p N).keyToIndex (keyOf N w) = .ok (wordIndex N w) :=
    fun w hw hl => keyToIndex_keyOf p N (by omega) hN w hw hl
  have hidx' : ∀ w, ValidWord N w → w.length ≤ maxDepth N → idx (keyOf N w) = wordIndex N w := by
    intro w hw hl
    simp only [idx, hidx w hw hl]
  have hlt : ∀ e ∈ items, wordIndex N e.1 < geomSum N (D + 1) := by
    intro e he
    have := (wordIndex_bounds (hw e he)).2
    have := geomSum_mono (N := N) (show e.1.length + 1 ≤ D + 1 by have := hD e he; omega)
    omega
  obtain ⟨r, h1, _, h3, h4⟩ := Dense.fromIterator_ok C (tensorBasis p N) (items.map fun e => (keyOf N e.1, e.2)) idx
    (by
      intro e he
      obtain ⟨e', he', rfl⟩ := List.mem_map.1 he
      have := hD e' he'
      rw [hidx _ (hw e' he') (by omega), hidx' _ (hw e' he') (by omega)])
    (by
      obtain ⟨e, he, _⟩ := hex
      intro h
      rw [List.map_eq_nil_iff] at h
      rw [h] at he
      cases he)
    (geomSum N (D + 1))
    (by
      intro e he
      obtain ⟨e', he', rfl⟩ := List.mem_map.1 he
      have := hD e' he'
      rw [hidx' _ (hw e' he') (by omega)]
      exact hlt e' he')
    (by
      intro e he hmax
      obtain ⟨e', he', rfl⟩ := List.mem_map.1 he
      obtain ⟨em, hem, hemD⟩ := hex
      have hm := hmax (keyOf N em.1, em.2) (List.mem_map.2 ⟨em, hem, rfl⟩)
      have hde := hD e' he'
      simp only at hm ⊢
      rw [hidx' _ (hw e' he') (by omega), hidx' _ (hw em hem) (by omega)] at hm
      have hbm := (wordIndex_bounds (hw em hem)).1
      rw [hemD] at hbm
      rw [hidx' _ (hw e' he') (by omega)]
      show vectorDimensionForIndex p N _ = _
      unfold vectorDimensionForIndex
      rw [indexToDegree_ok p N h2 _ D hp (by omega) (hlt e' he'), Res.bind_ok, addW_ok (by omega), Res.bind_ok,
        startOfDegree_ok p N h2 _ hp])
  refine ⟨r, h1, h3, ?_⟩
  intro u ku hu hlu hku
  rw [fromLetters_ok p N (by omega) hN u hu hlu] at hku
  cases hku
  show Dense.get _ _ _ = _
  unfold Dense.get
  rw [hidx u hu hlu, Res.bind_ok]
  have hub := wordIndex_bounds hu
  by_cases hlen : u.length ≤ D
  · have hgm := geomSum_mono (N := N) (show u.length + 1 ≤ D + 1 by omega)
    rw [h4 _ (by omega), if_pos hlen, List.filter_map, List.map_map, Res.pure_eq]
    congr 3
    unfold Spec.valuesOf
    congr 1
    refine List.filter_congr ?_
    intro e he
    have := hD e he
    simp only [Function.comp, hidx' _ (hw e he) (by omega)]
    rw [decide_eq_decide]
    exact ⟨fun h => wordIndex_inj (hw e he) hu h, fun h => by rw [h]⟩
  · have hgm := geomSum_mono (N := N) (show D + 1 ≤ u.length by omega)
    rw [if_neg hlen, List.getElem?_eq_none (by omega), Res.pure_eq]

/-- C18.  The empty iterator gives the empty vector. -/
theorem C18_from_iterator_empty {K S R : Type} (C : Coeff S R) (B : Basis K) :
    (Dense.ops C B).fromIterator [] = .ok (Dense.ops C B).new := by
  show Dense.fromIterator C B [] = .ok Dense.new
  unfold Dense.fromIterator
  rw [List.mapM_nil, Res.pure_eq, Res.bind_ok, List.mergeSort_nil]
  rfl

example : (Dense.ops intCoeff (tensorBasis .debug 3)).fromIterator [] = .ok (.ofVec []) := C18_from_iterator_empty intCoeff _

example : ∃ r, (Dense.ops intCoeff (tensorBasis .release 3)).fromIterator
      [(keyOf 3 [3], 5), (keyOf 3 [1, 2], 10), (keyOf 3 [3], -7), (keyOf 3 [], 1)] = .ok r ∧
    (Dense.ops intCoeff (tensorBasis .release 3)).get r (keyOf 3 [3]) = .ok (some (-2)) ∧ r.size = 13 := by
  have hd : maxDepth 3 = 30 := by decide +kernel
  have hk : ∀ u, ValidWord 3 u → u.length ≤ 4 → fromLetters .release 3 u = .ok (keyOf 3 u) := fun u hu hl =>
    fromLetters_ok .release 3 (by omega) (by omega) u hu (by rw [hd]; omega)
  obtain ⟨r, h1, h2, h3⟩ := C18_from_iterator intCoeff .release 3 (by omega) (by omega)
    [([3], (5 : Int)), ([1, 2], 10), ([3], -7), ([], 1)] 2 (by decide) (by decide) (by decide) (by rw [hd]; decide) (by decide)
    [(keyOf 3 [3], 5), (keyOf 3 [1, 2], 10), (keyOf 3 [3], -7), (keyOf 3 [], 1)]
    (by
      simp only [List.mapM_cons, List.mapM_nil]
      rw [hk [3] (by decide) (by decide), hk [1, 2] (by decide) (by decide), hk [] (by decide) (by decide)]
      rfl)
  exact ⟨r, h1, h3 [3] _ (by decide) (by rw [hd]; decide) (hk _ (by decide) (by decide)), h2⟩

/-! ## C19: arithmetic, coefficient by coefficient -/

section
variable {K S R : Type} (C : Coeff S R) (B : Basis K)

/-- Entry of `a op b` from the entries of `a` and `b`; `none` is "not stored".  Where only `b` has an entry the accumulator starts at zero. -/
def Spec.combineEntry (f : S → S → S) (z : S) : Option S → Option S → Option S
  | some x, some y => some (f x y)
  | some x, none => some x
  | none, some y => some (f z y)
  | none, none => none

theorem get_eq (d : Dense S) (k : K) (x : Option S) (h : (Dense.ops C B).get d k = .ok x) :
    ∃ i, B.keyToIndex k = .ok i ∧ d.data[i]? = x ∧ ∀ d' : Dense S, (Dense.ops C B).get d' k = .ok d'.data[i]? := by
  change Dense.get B d k = _ at h
  unfold Dense.get at h
  match hk : B.keyToIndex k with
  | .ok i =>
    rw [hk] at h
    refine ⟨i, rfl, ?_, ?_⟩
    · injection h
    · intro d'
      show Dense.get B d' k = _
      unfold Dense.get
      rw [hk]
      rfl
  | .panic => rw [hk] at h; cases h
  | .ub => rw [hk] at h; cases h
  | .diverge => rw [hk] at h; cases h

theorem combine_get (f : S → S → S) (d o r : Dense S) (hr : r.data = Dense.combine C f d.data o.data) (k : K) (x y : Option S)
    (hx : (Dense.ops C B).get d k = .ok x) (hy : (Dense.ops C B).get o k = .ok y) :
    (Dense.ops C B).get r k = .ok (Spec.combineEntry f C.zero x y) := by
  obtain ⟨i, hk, hi, hget⟩ := get_eq C B d k x hx
  rw [hget] at hy
  injection hy with hy
  rw [hget, hr, Dense.combine_getElem?, hi, hy]
  cases x <;> cases y <;> rfl

theorem map_get (f : S → S) (d r : Dense S) (hr : r.data = d.data.map f) (k : K) (x : Option S)
    (hx : (Dense.ops C B).get d k = .ok x) : (Dense.ops C B).get r k = .ok (x.map f) := by
  obtain ⟨i, hk, hi, hget⟩ := get_eq C B d k x hx
  rw [hget, hr, List.getElem?_map, hi]

/-- C19.  Addition, in place and value-returning: same slice; the length is the larger one; coefficientwise. -/
theorem C19_add (d o : Dense S) :
    ∃ r r', (Dense.ops C B).addInplace d o = .ok r ∧ (Dense.ops C B).add d o = .ok r' ∧ r'.mode = .owned ∧ r'.data = r.data ∧
      r.size = max d.size o.size ∧
      ∀ k x y, (Dense.ops C B).get d k = .ok x → (Dense.ops C B).get o k = .ok y →
        (Dense.ops C B).get r k = .ok (Spec.combineEntry C.add C.zero x y) := by
  obtain ⟨r, hr, hrd⟩ := Dense.addInplace_data C d o
  obtain ⟨r', hr', hrd'⟩ := Dense.addInplace_data C (Dense.ofVec d.data) o
  refine ⟨r, r', hr, hr', ?_, by rw [hrd, hrd']; rfl, ?_, combine_get C B _ d o r hrd⟩
  · unfold Dense.addInplace at hr'
    simp only at hr'
    injection hr' with hr'
    rw [← hr']
    unfold Dense.makeMut Dense.ofVec Dense.resize Dense.writeSlice Dense.makeMut
    simp only
    split_ifs <;> rfl
  · unfold Dense.size; rw [hrd, Dense.combine_length]

example : (Dense.ops intCoeff integerBasis).add (.ofVec [1, 2]) (.ofBorrowed [10, 20, 30]) = .ok (.ofVec [11, 22, 30]) ∧
    ∃ r r', (Dense.ops intCoeff integerBasis).addInplace (.ofVec [1, 2]) (.ofBorrowed [10, 20, 30]) = .ok r ∧
      (Dense.ops intCoeff integerBasis).add (.ofVec [1, 2]) (.ofBorrowed [10, 20, 30]) = .ok r' ∧ r'.mode = .owned ∧ r'.data = r.data ∧
      r.size = 3 ∧ ∀ k x y, (Dense.ops intCoeff integerBasis).get (.ofVec [1, 2]) k = .ok x →
        (Dense.ops intCoeff integerBasis).get (.ofBorrowed [10, 20, 30]) k = .ok y →
        (Dense.ops intCoeff integerBasis).get r k = .ok (Spec.combineEntry intCoeff.add intCoeff.zero x y) :=
  ⟨by decide +kernel, C19_add intCoeff integerBasis _ _⟩

/-- C19.  Subtraction. -/
theorem C19_sub (d o : Dense S) :
    ∃ r r', (Dense.ops C B).subInplace d o = .ok r ∧ (Dense.ops C B).sub d o = .ok r' ∧ r'.mode = .owned ∧ r'.data = r.data ∧
      r.size = max d.size o.size ∧
      ∀ k x y, (Dense.ops C B).get d k = .ok x → (Dense.ops C B).get o k = .ok y →
        (Dense.ops C B).get r k = .ok (Spec.combineEntry C.sub C.zero x y) := by
  obtain ⟨r, hr, hrd⟩ := Dense.subInplace_data C d o
  obtain ⟨r', hr', hrd'⟩ := Dense.subInplace_data C (Dense.ofVec d.data) o
  refine ⟨r, r', hr, hr', ?_, by rw [hrd, hrd']; rfl, ?_, combine_get C B _ d o r hrd⟩
  · unfold Dense.subInplace at hr'
    simp only at hr'
    injection hr' with hr'
    rw [← hr']
    unfold Dense.ofVec Dense.resize Dense.writeSlice Dense.makeMut
    simp only
    split_ifs <;> rfl
  · unfold Dense.size; rw [hrd, Dense.combine_length]

example : (Dense.ops intCoeff integerBasis).sub (.ofVec [1, 2]) (.ofBorrowed [10, 20, 30]) = .ok (.ofVec [-9, -18, -30]) := by decide +kernel

/-- C19.  Negation. -/
theorem C19_uminus (d : Dense S) :
    ∃ r r', (Dense.ops C B).uminusInplace d = .ok r ∧ (Dense.ops C B).uminus d = .ok r' ∧ r'.mode = .owned ∧ r'.data = r.data ∧
      r.size = d.size ∧
      ∀ k x, (Dense.ops C B).get d k = .ok x → (Dense.ops C B).get r k = .ok (x.map C.uminus) := by
  refine ⟨_, _, rfl, rfl, rfl, ?_, ?_, fun k x hx => map_get C B C.uminus d _ ?_ k x hx⟩ <;>
    simp [Dense.size]

example : (Dense.ops intCoeff integerBasis).uminusInplace (.ofBorrowedMut [1, -2]) = .ok ⟨.borrowedMut, [-1, 2], [-1, 2]⟩ := by decide +kernel

/-- C19.  Multiplication by a scalar: left and right, in place and value-returning, all give the same slice. -/
theorem C19_scalar_multiply (d : Dense S) (s : S) :
    ∃ r r', (Dense.ops C B).scalarLmultiplyInplace d s = .ok r ∧ (Dense.ops C B).scalarRmultiplyInplace d s = .ok r ∧
      (Dense.ops C B).scalarLmultiply d s = .ok r' ∧ (Dense.ops C B).scalarRmultiply d s = .ok r' ∧
      r'.mode = .owned ∧ r'.data = r.data ∧ r.size = d.size ∧
      ∀ k x, (Dense.ops C B).get d k = .ok x → (Dense.ops C B).get r k = .ok (x.map fun v => C.mul v s) := by
  refine ⟨_, _, rfl, rfl, rfl, rfl, rfl, ?_, ?_, fun k x hx => map_get C B _ d _ ?_ k x hx⟩ <;>
    simp [Dense.size]

example : (Dense.ops intCoeff integerBasis).scalarRmultiply (.ofBorrowed [1, -2]) 5 = .ok (.ofVec [5, -10]) := by decide +kernel

/-- C19.  Division by a rational. -/
theorem C19_scalar_divide (d : Dense S) (s : R) :
    ∃ r r', (Dense.ops C B).scalarRdivideInplace d s = .ok r ∧ (Dense.ops C B).scalarLdivideInplace d s = .ok r ∧
      (Dense.ops C B).scalarRdivide d s = .ok r' ∧ (Dense.ops C B).scalarLdivide d s = .ok r' ∧
      r'.mode = .owned ∧ r'.data = r.data ∧ r.size = d.size ∧
      ∀ k x, (Dense.ops C B).get d k = .ok x → (Dense.ops C B).get r k = .ok (x.map fun v => C.div v s) := by
  refine ⟨_, _, rfl, rfl, rfl, rfl, rfl, ?_, ?_, fun k x hx => map_get C B _ d _ ?_ k x hx⟩ <;>
    simp [Dense.size]

example : (Dense.ops intCoeff integerBasis).scalarLdivide (.ofBorrowed [15, -20]) 5 = .ok (.ofVec [3, -4]) := by decide +kernel

theorem fused_data (f : S → S → S) (g : S → S) (d o r : Dense S)
    (hr : r.data = Dense.combine C f d.data (o.data.map g)) (k : K) (x y : Option S)
    (hx : (Dense.ops C B).get d k = .ok x) (hy : (Dense.ops C B).get o k = .ok y) :
    (Dense.ops C B).get r k = .ok (Spec.combineEntry f C.zero x (y.map g)) :=
  combine_get C B f d (Dense.ofVec (o.data.map g)) r hr k x (y.map g) hx (map_get C B g o _ rfl k y hy)

/-- C19.  The fused forms: `add_scalar_{l,r}multiply`, `sub_scalar_{l,r}multiply`. -/
theorem C19_fused_multiply (d o : Dense S) (s : S) :
    ∃ ra rs, (Dense.ops C B).addScalarLmultiply d o s = .ok ra ∧ (Dense.ops C B).addScalarRmultiply d o s = .ok ra ∧
      (Dense.ops C B).subScalarLmultiply d o s = .ok rs ∧ (Dense.ops C B).subScalarRmultiply d o s = .ok rs ∧
      ra.size = max d.size o.size ∧ rs.size = max d.size o.size ∧
      ∀ k x y, (Dense.ops C B).get d k = .ok x → (Dense.ops C B).get o k = .ok y →
        (Dense.ops C B).get ra k = .ok (Spec.combineEntry C.add C.zero x (y.map fun v => C.mul v s)) ∧
        (Dense.ops C B).get rs k = .ok (Spec.combineEntry C.sub C.zero x (y.map fun v => C.mul v s)) := by
  obtain ⟨ra, ha, had⟩ := Dense.addInplace_data C d (Dense.ofVec (o.data.map fun v => C.mul v s))
  obtain ⟨rs, hs, hsd⟩ := Dense.subInplace_data C d (Dense.ofVec (o.data.map fun v => C.mul v s))
  refine ⟨ra, rs, ha, ha, hs, hs, ?_, ?_, fun k x y hx hy => ⟨fused_data C B _ _ d o ra had k x y hx hy,
    fused_data C B _ _ d o rs hsd k x y hx hy⟩⟩
  · unfold Dense.size; rw [had, Dense.combine_length, Dense.ofVec_data, List.length_map]
  · unfold Dense.size; rw [hsd, Dense.combine_length, Dense.ofVec_data, List.length_map]

/-- C19.  The fused forms with division. -/
theorem C19_fused_divide (d o : Dense S) (s : R) :
    ∃ ra rs, (Dense.ops C B).addScalarLdivide d o s = .ok ra ∧ (Dense.ops C B).addScalarRdivide d o s = .ok ra ∧
      (Dense.ops C B).subScalarLdivide d o s = .ok rs ∧ (Dense.ops C B).subScalarRdivide d o s = .ok rs ∧
      ra.size = max d.size o.size ∧ rs.size = max d.size o.size ∧
      ∀ k x y, (Dense.ops C B).get d k = .ok x → (Dense.ops C B).get o k = .ok y →
        (Dense.ops C B).get ra k = .ok (Spec.combineEntry C.add C.zero x (y.map fun v => C.div v s)) ∧
        (Dense.ops C B).get rs k = .ok (Spec.combineEntry C.sub C.zero x (y.map fun v => C.div v s)) := by
  obtain ⟨ra, ha, had⟩ := Dense.addInplace_data C d (Dense.ofVec (o.data.map fun v => C.div v s))
  obtain ⟨rs, hs, hsd⟩ := Dense.subInplace_data C d (Dense.ofVec (o.data.map fun v => C.div v s))
  refine ⟨ra, rs, ha, ha, hs, hs, ?_, ?_, fun k x y hx hy => ⟨fused_data C B _ _ d o ra had k x y hx hy,
    fused_data C B _ _ d o rs hsd k x y hx hy⟩⟩
  · unfold Dense.size; rw [had, Dense.combine_length, Dense.ofVec_data, List.length_map]
  · unfold Dense.size; rw [hsd, Dense.combine_length, Dense.ofVec_data, List.length_map]

example : (Dense.ops intCoeff integerBasis).subScalarRdivide (.ofVec [1, 2, 3]) (.ofVec [10, 20]) 5 = .ok (.ofVec [-1, -2, 3]) := by
  decide +kernel

example : (Dense.ops intCoeff integerBasis).addScalarLmultiply (.ofBorrowed [1, 2]) (.ofVec [10, 20, 30]) (-1) =
    .ok ⟨.owned, [-9, -18, -30], [1, 2]⟩ := by decide +kernel

/-- The coefficient of a vector at a key: a missing entry counts as zero. -/
def coefAt (d : Dense S) (k : K) : Res S := (fun o => o.getD C.zero) <$> (Dense.ops C B).get d k

/-! ## C20: module laws over exact coefficients -/

theorem coef_combine {f : S → S → S} {d o r : Dense S} (hr : r.data = Dense.combine C f d.data o.data)
    (hf : ∀ x, f x C.zero = x) {k : K} {i : Nat} (hk : B.keyToIndex k = .ok i) :
    coefAt C B r k = .ok (f (d.data[i]?.getD C.zero) (o.data[i]?.getD C.zero)) := by
  have hg : ∀ d' : Dense S, (Dense.ops C B).get d' k = .ok d'.data[i]? := by
    intro d'
    show Dense.get B d' k = _
    unfold Dense.get
    rw [hk]; rfl
  unfold coefAt
  rw [hg, hr, Dense.combine_getElem?]
  cases d.data[i]? <;> cases o.data[i]? <;> simp [hf]

theorem coef_ok (d : Dense S) {k : K} {i : Nat} (hk : B.keyToIndex k = .ok i) :
    coefAt C B d k = .ok (d.data[i]?.getD C.zero) := by
  unfold coefAt
  show _ <$> Dense.get B d k = _
  unfold Dense.get
  rw [hk]; rfl

theorem coef_inv {d : Dense S} {k : K} {x : S} (h : coefAt C B d k = .ok x) :
    ∃ i, B.keyToIndex k = .ok i ∧ x = d.data[i]?.getD C.zero := by
  unfold coefAt at h
  change _ <$> Dense.get B d k = _ at h
  unfold Dense.get at h
  match hk : B.keyToIndex k with
  | .ok i => rw [hk] at h; injection h with h; exact ⟨i, rfl, h.symm⟩
  | .panic => rw [hk] at h; cases h
  | .ub => rw [hk] at h; cases h
  | .diverge => rw [hk] at h; cases h

/-- C19/C20.  Over exact coefficients every operation is the pointwise one on coefficient functions (missing entry = 0). -/
theorem C20_coefficients [CommRing S] (hC : C.IsRing) (d o : Dense S) (s : S) :
    ∃ ra rs rm rn, (Dense.ops C B).add d o = .ok ra ∧ (Dense.ops C B).sub d o = .ok rs ∧ (Dense.ops C B).scalarLmultiply d s = .ok rm ∧
      (Dense.ops C B).uminus d = .ok rn ∧
      ∀ k x y, coefAt C B d k = .ok x → coefAt C B o k = .ok y →
        coefAt C B ra k = .ok (x + y) ∧ coefAt C B rs k = .ok (x - y) ∧ coefAt C B rm k = .ok (x * s) ∧ coefAt C B rn k = .ok (-x) := by
  obtain ⟨ra, ha, had⟩ := Dense.addInplace_data C (Dense.ofVec d.data) o
  obtain ⟨rs, hs, hsd⟩ := Dense.subInplace_data C (Dense.ofVec d.data) o
  refine ⟨ra, rs, _, _, ha, hs, rfl, rfl, ?_⟩
  intro k x y hx hy
  obtain ⟨i, hk, rfl⟩ := coef_inv C B hx
  obtain ⟨j, hj, rfl⟩ := coef_inv C B hy
  rw [hk] at hj
  cases hj
  refine ⟨?_, ?_, ?_, ?_⟩
  · rw [coef_combine C B had (by intro x; rw [hC.add, hC.zero, add_zero]) hk, hC.add, Dense.ofVec_data]
  · rw [coef_combine C B hsd (by intro x; rw [hC.sub, hC.zero, sub_zero]) hk, hC.sub, Dense.ofVec_data]
  · rw [coef_ok C B _ hk, Dense.writeSlice_data, List.getElem?_map, Dense.ofVec_data]
    cases d.data[i]? <;> simp [hC.mul, hC.zero]
  · rw [coef_ok C B _ hk, Dense.writeSlice_data, List.getElem?_map, Dense.ofVec_data]
    cases d.data[i]? <;> simp [hC.uminus, hC.zero]

example := C20_coefficients intCoeff integerBasis intCoeff_isRing (.ofVec [3, 4]) (.ofBorrowed [1]) 5

/-- C20.  Addition is commutative and associative, the empty vector is neutral, `x - x` is zero, negation is `0 - x`. -/
theorem C20_additive_group [CommRing S] (hC : C.IsRing) (a b c : Dense S) :
    ∃ ab ba abc bc abc' a0 aa na na',
      (Dense.ops C B).add a b = .ok ab ∧ (Dense.ops C B).add b a = .ok ba ∧ (Dense.ops C B).add ab c = .ok abc ∧
      (Dense.ops C B).add b c = .ok bc ∧ (Dense.ops C B).add a bc = .ok abc' ∧
      (Dense.ops C B).add a (Dense.ops C B).new = .ok a0 ∧ (Dense.ops C B).sub a a = .ok aa ∧
      (Dense.ops C B).uminus a = .ok na ∧ (Dense.ops C B).sub (Dense.ops C B).new a = .ok na' ∧
      ∀ k x, coefAt C B a k = .ok x →
        coefAt C B ab k = coefAt C B ba k ∧ coefAt C B abc k = coefAt C B abc' k ∧ coefAt C B a0 k = .ok x ∧
        coefAt C B aa k = .ok 0 ∧ coefAt C B na k = coefAt C B na' k := by
  obtain ⟨ab, h1, h1d⟩ := Dense.addInplace_data C (Dense.ofVec a.data) b
  obtain ⟨ba, h2, h2d⟩ := Dense.addInplace_data C (Dense.ofVec b.data) a
  obtain ⟨abc, h3, h3d⟩ := Dense.addInplace_data C (Dense.ofVec ab.data) c
  obtain ⟨bc, h4, h4d⟩ := Dense.addInplace_data C (Dense.ofVec b.data) c
  obtain ⟨abc', h5, h5d⟩ := Dense.addInplace_data C (Dense.ofVec a.data) bc
  obtain ⟨a0, h6, h6d⟩ := Dense.addInplace_data C (Dense.ofVec a.data) Dense.new
  obtain ⟨aa, h7, h7d⟩ := Dense.subInplace_data C (Dense.ofVec a.data) a
  obtain ⟨na', h8, h8d⟩ := Dense.subInplace_data C (Dense.ofVec (Dense.new : Dense S).data) a
  refine ⟨ab, ba, abc, bc, abc', a0, aa, _, na', h1, h2, h3, h4, h5, h6, h7, rfl, h8, ?_⟩
  intro k x hx
  obtain ⟨i, hk, rfl⟩ := coef_inv C B hx
  have hf : ∀ x, C.add x C.zero = x := by intro x; rw [hC.add, hC.zero, add_zero]
  have hg : ∀ x, C.sub x C.zero = x := by intro x; rw [hC.sub, hC.zero, sub_zero]
  have e1 := coef_combine C B h1d hf hk
  have e4 := coef_combine C B h4d hf hk
  rw [coef_ok C B _ hk] at e1 e4
  injection e1 with e1
  injection e4 with e4
  refine ⟨?_, ?_, ?_, ?_, ?_⟩
  · rw [coef_combine C B h1d hf hk, coef_combine C B h2d hf hk, hC.add, hC.add, Dense.ofVec_data, Dense.ofVec_data, add_comm]
  · rw [coef_combine C B h3d hf hk, coef_combine C B h5d hf hk, Dense.ofVec_data, e1, e4]
    simp only [hC.add, Dense.ofVec_data, add_assoc]
  · rw [coef_combine C B h6d hf hk]
    simp [hC.add, Dense.new, hC.zero]
  · rw [coef_combine C B h7d hg hk, hC.sub, Dense.ofVec_data, sub_self]
  · rw [coef_combine C B h8d hg hk, coef_ok C B _ hk, Dense.writeSlice_data, List.getElem?_map, Dense.ofVec_data, hC.sub]
    cases a.data[i]? <;> simp [hC.uminus, hC.zero, Dense.new]

example := C20_additive_group intCoeff (tensorBasis .debug 2) intCoeff_isRing (.ofVec [3, 4, 5]) (.ofBorrowed [1]) (.ofVec [0, 0, 0, 2])

/-- C20.  Scalar multiplication distributes over addition of vectors and of scalars, is associative, and `1` acts trivially. -/
theorem C20_scalar_laws [CommRing S] (hC : C.IsRing) (a b : Dense S) (s t : S) :
    ∃ ab abs as bs asbs at' asat ast ats a1,
      (Dense.ops C B).add a b = .ok ab ∧ (Dense.ops C B).scalarLmultiply ab s = .ok abs ∧
      (Dense.ops C B).scalarLmultiply a s = .ok as ∧ (Dense.ops C B).scalarLmultiply b s = .ok bs ∧
      (Dense.ops C B).add as bs = .ok asbs ∧ (Dense.ops C B).scalarLmultiply a t = .ok at' ∧
      (Dense.ops C B).add as at' = .ok asat ∧ (Dense.ops C B).scalarLmultiply a (s + t) = .ok ast ∧
      (Dense.ops C B).scalarLmultiply at' s = .ok ats ∧ (Dense.ops C B).scalarLmultiply a C.one = .ok a1 ∧
      ∀ k x, coefAt C B a k = .ok x →
        coefAt C B abs k = coefAt C B asbs k ∧ coefAt C B asat k = coefAt C B ast k ∧
        coefAt C B ats k = .ok (x * (t * s)) ∧ coefAt C B a1 k = .ok x := by
  obtain ⟨ab, h1, h1d⟩ := Dense.addInplace_data C (Dense.ofVec a.data) b
  obtain ⟨asbs, h2, h2d⟩ := Dense.addInplace_data C (Dense.ofVec (a.data.map fun x => C.mul x s)) (Dense.ofVec (b.data.map fun x => C.mul x s))
  obtain ⟨asat, h3, h3d⟩ := Dense.addInplace_data C (Dense.ofVec (a.data.map fun x => C.mul x s)) (Dense.ofVec (a.data.map fun x => C.mul x t))
  refine ⟨ab, _, Dense.ofVec (a.data.map fun x => C.mul x s), Dense.ofVec (b.data.map fun x => C.mul x s), asbs,
    Dense.ofVec (a.data.map fun x => C.mul x t), asat, _, _, _, h1, rfl, rfl, rfl, h2, rfl, h3, rfl, rfl, rfl, ?_⟩
  intro k x hx
  obtain ⟨i, hk, rfl⟩ := coef_inv C B hx
  have hf : ∀ x, C.add x C.zero = x := by intro x; rw [hC.add, hC.zero, add_zero]
  have e1 := coef_combine C B h1d hf hk
  rw [coef_ok C B _ hk] at e1
  injection e1 with e1
  have hm : ∀ (l : List S) (s : S), ((l.map fun x => C.mul x s)[i]?).getD C.zero = (l[i]?).getD C.zero * s := by
    intro l s
    rw [List.getElem?_map]
    cases l[i]? <;> simp [hC.mul, hC.zero]
  refine ⟨?_, ?_, ?_, ?_⟩
  · rw [coef_combine C B h2d hf hk, coef_ok C B _ hk, Dense.writeSlice_data]
    simp only [Dense.ofVec_data, hm, hC.add]
    rw [e1, hC.add, Dense.ofVec_data, add_mul]
  · rw [coef_combine C B h3d hf hk, coef_ok C B _ hk, Dense.writeSlice_data]
    simp only [Dense.ofVec_data, hm, hC.add, mul_add]
  · rw [coef_ok C B _ hk, Dense.writeSlice_data]
    simp only [Dense.ofVec_data, hm, mul_assoc]
  · rw [coef_ok C B _ hk, Dense.writeSlice_data]
    simp only [Dense.ofVec_data, hm, hC.one, mul_one]

example := C20_scalar_laws intCoeff (tensorBasis .debug 2) intCoeff_isRing (.ofVec [3, 4, 5]) (.ofBorrowed [1]) 2 (-3)

example : intCoeff.IsRing ∧ coefAt intCoeff integerBasis (.ofVec [3, 4]) 1 = .ok 4 ∧ coefAt intCoeff integerBasis (.ofVec [3, 4]) 7 = .ok 0 :=
  ⟨intCoeff_isRing, by decide +kernel, by decide +kernel⟩

end

end RA
