import Verif.Props.ReleaseKeys
import Verif.Props.Counting
import Verif.Props.Sparse
import Mathlib.Tactic.LinearCombination

/-!
# Exactly when `from_key` is safe in release builds (C17) and when operations with basis keys are right (C27, C31, C32)
-/

namespace RA
open Spec TensorKey TensorBasis

/-! ## C17 -/

theorem keyToIndex_release {N b : Nat} (hbb : bitsPerLetter N = b) (hb : b ≤ 32) (hb0 : 1 ≤ b) (k : TensorKey) (hs : k.size * b ≤ 64) :
    keyToIndex .release N k =
      .ok (((List.range k.size).map fun i => (k.data / 2 ^ (i * b) % 2 ^ b + 1) % 2 ^ 32).foldr (fun l acc => acc * N + l) 0 % 2 ^ 64) := by
  have step : ∀ (L : List Nat) (x : Nat), (∀ i ∈ L, i < k.size) →
      L.foldlM (keyToIndexStep .release N k) (x % 2 ^ 64) =
        .ok (L.foldl (fun acc i => acc * N + (k.data / 2 ^ (i * b) % 2 ^ b + 1) % 2 ^ 32) x % 2 ^ 64) := by
    intro L
    induction L with
    | nil => intro x _; rfl
    | cons i L ih =>
      intro x hL
      have hi := hL i List.mem_cons_self
      have h1 : keyToIndexStep .release N k (x % 2 ^ 64) i = .ok ((x * N + (k.data / 2 ^ (i * b) % 2 ^ b + 1) % 2 ^ 32) % 2 ^ 64) := by
        unfold keyToIndexStep
        rw [mulW_release, Res.bind_ok, getLetter_release hbb hb hb0 k i (Nat.le_trans (Nat.mul_le_mul_right _ hi) hs), Res.bind_ok, addW_release]
        refine congrArg Res.ok ?_
        rw [Nat.mod_add_mod, Nat.add_mod, Nat.mod_mul_mod, ← Nat.add_mod]
      rw [List.foldlM_cons, h1, Res.bind_ok, List.foldl_cons]
      exact ih _ fun j hj => hL j (List.mem_cons_of_mem _ hj)
  unfold keyToIndex
  have := step (List.range k.size).reverse 0 (fun i hi => List.mem_range.1 (List.mem_reverse.1 hi))
  rw [Nat.zero_mod, List.foldl_reverse] at this
  rw [this, List.foldr_map]

/-- C17, exactly when `from_key` writes out of bounds in a release build, for every key whose letters fit in 64 bits, however it was made: `u` are the
letters that `to_letters` gives.  The vector has `(N ^ (size + 1) - 1) / (N - 1)` entries, the written one is `u_0 + u_1 N + u_2 N ^ 2 + ...`; both wrap. -/
theorem C17_release_ub_iff {S R : Type} (C : Coeff S R) (N b : Nat) (h2 : 2 ≤ N) (hb0 : 1 ≤ b) (hb : 2 ^ (b - 1) ≤ N) (hb' : N < 2 ^ b) (hN : N < 2 ^ 32)
    (k : TensorKey) (hs : k.size * b ≤ 64) (s : S) :
    ∃ u, toLetters .release N k = .ok u ∧
      ((Dense.ops C (tensorBasis .release N)).fromKeyScalar k s = .ub ↔
        (N ^ (k.size + 1) % 2 ^ 64 + (2 ^ 64 - 1)) % 2 ^ 64 / (N - 1) ≤ u.foldr (fun l acc => acc * N + l) 0 % 2 ^ 64) ∧
      ((Dense.ops C (tensorBasis .release N)).fromKeyScalar k s ≠ .ub → ∃ r, (Dense.ops C (tensorBasis .release N)).fromKeyScalar k s = .ok r) := by
  have hbb := bpl_eq hb0 hb hb'
  have hb32 := b_le hb hN
  have hsz : k.size ≤ k.size * b := Nat.le_mul_of_pos_right _ hb0
  refine ⟨_, toLetters_release hbb hb32 hb0 k hs, ?_⟩
  have hidx : (tensorBasis .release N).keyToIndex k = .ok _ := keyToIndex_release hbb hb32 hb0 k hs
  have hdim : (tensorBasis .release N).dimForKey k = .ok ((N ^ (k.size + 1) % 2 ^ 64 + (2 ^ 64 - 1)) % 2 ^ 64 / (N - 1)) := by
    show vectorDimensionForKey .release N k = _
    unfold vectorDimensionForKey
    rw [show degree k = k.size from rfl, addW_ok (by omega), Res.bind_ok, C12_start_of_degree_release N h2]
  rcases Nat.lt_or_ge (((List.range k.size).map fun i => (k.data / 2 ^ (i * b) % 2 ^ b + 1) % 2 ^ 32).foldr (fun l acc => acc * N + l) 0 % 2 ^ 64)
    ((N ^ (k.size + 1) % 2 ^ 64 + (2 ^ 64 - 1)) % 2 ^ 64 / (N - 1)) with h | h
  · have hok := Dense.fromKeyScalar_ok C _ hdim hidx h s
    refine ⟨⟨fun h' => ?_, fun h' => absurd h (by omega)⟩, fun _ => ⟨_, hok⟩⟩
    exact Res.noConfusion rfl (heq_of_eq (hok.symm.trans h'))
  · have hub := Dense.fromKeyScalar_ub C _ hdim hidx h s
    exact ⟨⟨fun _ => h, fun _ => hub⟩, fun h' => absurd hub h'⟩

/-- Over three letters the key made of the letters 1 and 4 is safe and lands on the index of the word 2 1; the one of 4 and 1 is not safe. -/
example : (Dense.ops intCoeff (tensorBasis .release 3)).fromKeyScalar ⟨2, 3⟩ 5 ≠ .ub ∧ (Dense.ops intCoeff (tensorBasis .release 3)).fromKeyScalar ⟨2, 12⟩ 5 = .ub := by
  constructor
  · obtain ⟨u, h1, h2, _⟩ := C17_release_ub_iff intCoeff 3 2 (by omega) (by omega) (by norm_num) (by norm_num) (by norm_num) ⟨2, 3⟩ (by norm_num) 5
    have hu : toLetters .release 3 ⟨2, 3⟩ = .ok [4, 1] := by decide +kernel
    cases h1.symm.trans hu
    intro h
    exact absurd (h2.1 h) (by decide +kernel)
  · obtain ⟨u, h1, h2, _⟩ := C17_release_ub_iff intCoeff 3 2 (by omega) (by omega) (by norm_num) (by norm_num) (by norm_num) ⟨2, 12⟩ (by norm_num) 5
    have hu : toLetters .release 3 ⟨2, 12⟩ = .ok [1, 4] := by decide +kernel
    cases h1.symm.trans hu
    exact h2.2 (by decide +kernel)

/-- C17, debug builds, words: `from_key` returns if and only if the dimension is representable; otherwise it panics. -/
theorem C17_debug_iff {S R : Type} (C : Coeff S R) (N : Nat) (h2 : 2 ≤ N) (hN : N < 2 ^ 32) (w : List Nat) (hw : ValidWord N w) (hl : w.length ≤ maxDepth N)
    (k : TensorKey) (hk : fromLetters .debug N w = .ok k) (s : S) :
    ((∃ r, (Dense.ops C (tensorBasis .debug N)).fromKeyScalar k s = .ok r) ↔ N ^ (w.length + 1) < 2 ^ 64) ∧
      ((Dense.ops C (tensorBasis .debug N)).fromKeyScalar k s = .panic ↔ 2 ^ 64 ≤ N ^ (w.length + 1)) := by
  by_cases hp : N ^ (w.length + 1) < 2 ^ 64
  · obtain ⟨r, hr, _⟩ := C16_from_key_scalar C .debug N h2 hN w hw hl hp k hk s
    refine ⟨⟨fun _ => hp, fun _ => ⟨r, hr⟩⟩, fun h => ?_, fun h => absurd hp (by omega)⟩
    rw [hr] at h
    cases h
  · have hpan : (Dense.ops C (tensorBasis .debug N)).fromKeyScalar k s = .panic := by
      rw [fromLetters_ok .debug N (by omega) hN w hw hl] at hk
      cases hk
      have hmd := maxDepth_le N
      show Dense.fromKeyScalar C _ _ _ = _
      unfold Dense.fromKeyScalar
      have : (tensorBasis .debug N).dimForKey (keyOf N w) = .panic := by
        show vectorDimensionForKey .debug N (keyOf N w) = _
        unfold vectorDimensionForKey
        rw [show degree (keyOf N w) = w.length from rfl, addW_ok (by omega), Res.bind_ok, startOfDegree_debug_overflow N _ (by omega)]
      rw [this]
      rfl
    refine ⟨⟨?_, fun h => absurd h hp⟩, fun _ => by omega, fun _ => hpan⟩
    rintro ⟨r, hr⟩
    rw [hpan] at hr
    cases hr

example : (Dense.ops intCoeff (tensorBasis .debug 31)).fromKeyScalar ⟨12, 1115730488329206750⟩ 5 = .panic :=
  (C17_debug_iff intCoeff 31 (by omega) (by omega) (List.replicate 12 31) (by decide) (by decide +kernel) _ (by decide +kernel) 5).2.2 (by decide)

theorem fold_steps_ub {S R : Type} (C : Coeff S R) (es : List (Nat × S)) (l : List S) (h : ∃ e ∈ es, l.length ≤ e.1) :
    es.foldlM (Dense.fromIteratorStep C) (Dense.ofVec l) = .ub := by
  induction es generalizing l with
  | nil => simp at h
  | cons e es ih =>
    rw [List.foldlM_cons]
    by_cases he : e.1 < l.length
    · have : Dense.fromIteratorStep C (.ofVec l) e = .ok (.ofVec (l.modify e.1 fun x => C.add x e.2)) := by
        unfold Dense.fromIteratorStep
        rw [Dense.ofVec_data, modifyUnchecked_ok _ he, Res.bind_ok, Dense.writeSlice_ofVec]
        rfl
      rw [this, Res.bind_ok]
      refine ih _ ?_
      obtain ⟨e', he', hle⟩ := h
      rw [List.length_modify]
      rcases List.mem_cons.1 he' with rfl | he'
      · omega
      · exact ⟨e', he', hle⟩
    · have : Dense.fromIteratorStep C (.ofVec l) e = .ub := by
        unfold Dense.fromIteratorStep modifyUnchecked
        rw [Dense.ofVec_data, if_neg he]
        rfl
      rw [this]
      rfl

/-- C17, the basis of the crate's own dense-vector tests: building from an iterator writes out of bounds exactly when key 255 is listed. -/
theorem C17_integer_basis_iterator_iff {S R : Type} (C : Coeff S R) (items : List (Nat × S)) (hk : ∀ e ∈ items, e.1 ≤ 255) :
    (Dense.ops C integerBasis).fromIterator items = .ub ↔ ∃ e ∈ items, e.1 = 255 := by
  show Dense.fromIterator C integerBasis items = .ub ↔ _
  constructor
  · intro h
    by_contra hno
    rcases eq_or_ne items [] with rfl | hne
    · revert h
      unfold Dense.fromIterator
      simp
    · obtain ⟨r, hr, _⟩ := Dense.fromIterator_ok C integerBasis items (fun k => k) (fun e _ => rfl) hne 255
        (fun e he => by
          have := hk e he
          have : e.1 ≠ 255 := fun h' => hno ⟨e, he, h'⟩
          omega) (fun _ _ _ => rfl)
      rw [hr] at h
      cases h
  · rintro ⟨e, he, h255⟩
    have hmap : items.mapM (fun e => do
        let i ← integerBasis.keyToIndex e.1
        return (i, e.2)) = (.ok items : Res _) := by
      clear hk he
      induction items with
      | nil => rfl
      | cons e es ih =>
        rw [List.mapM_cons, ih]
        rfl
    unfold Dense.fromIterator
    rw [hmap, Res.bind_ok]
    have hmem := (List.mergeSort_perm items (fun a b => decide (a.1 ≤ b.1))).mem_iff.2 he
    generalize items.mergeSort (fun a b => decide (a.1 ≤ b.1)) = srt at hmem
    cases hl : srt.getLast? with
    | none =>
      rw [List.getLast?_eq_none_iff] at hl
      rw [hl] at hmem
      simp at hmem
    | some last =>
      show srt.foldlM (Dense.fromIteratorStep C) (Dense.fromDimension C 255) = .ub
      refine fold_steps_ub C srt (List.replicate 255 C.zero) ⟨e, hmem, ?_⟩
      rw [List.length_replicate, h255]

example : (Dense.ops intCoeff integerBasis).fromIterator [(3, 1), (255, 2), (0, 7)] = .ub :=
  (C17_integer_basis_iterator_iff intCoeff _ (by decide)).2 ⟨(255, 2), by decide, rfl⟩

/-! ## C27, C31, C32 -/

section
variable {K S R : Type} [DecidableEq K]

theorem upsert_zeroFree (C : Coeff S R) (a : Sparse K S) (ha : a.WF) (hz : a.ZeroFree C) (k : K) (f : S → S) (v : S) (r : Sparse K S)
    (h : (do
        let (found, v') ← (Sparse.ops C).getMut a k f
        if found then return v' else (Sparse.ops C).insertSingle v' k v : Res (Sparse K S)) = .ok r) :
    r.ZeroFree C ↔ C.eq ((Sparse.find a.entries k).elim v f) C.zero = false := by
  obtain ⟨r', h1, h2, h3⟩ := sparse_upsert C a k f v
  cases h1.symm.trans h
  have hk : Sparse.find r.entries k = some ((Sparse.find a.entries k).elim v f) := Res.ok.inj h2
  have ho : ∀ k', k' ≠ k → Sparse.find r.entries k' = Sparse.find a.entries k' := fun k' hk' => Res.ok.inj (h3 k' hk')
  have hwf : r.WF := by
    change (do
        let (found, v') ← Sparse.getMut a k f
        if found then return v' else Sparse.insertSingle v' k v : Res (Sparse K S)) = .ok r at h
    unfold Sparse.getMut at h
    split_ifs at h
    · cases h
      exact Sparse.noDup_modifyAt ha _ _
    · cases h
      exact Sparse.noDup_hmInsert ha _ _
  refine ⟨fun hr => find_of_zeroFree C hr k _ hk, fun hr => zeroFree_of_find C hwf fun k' x hx => ?_⟩
  by_cases hkk : k' = k
  · subst hkk
    rw [hk] at hx
    cases hx
    exact hr
  · rw [ho k' hkk] at hx
    exact find_of_zeroFree C hz k' x hx

/-- C27, exactly when operations with a basis key keep a sparse vector free of zeros: when the new coefficient is not zero. -/
theorem C27_key_ops_iff_partial [CommRing S] (C : Coeff S R) (hC : C.IsRing) (hE : C.EqLawful) (a : Sparse K S) (ha : a.WF) (hz : a.ZeroFree C) (k : K) (s : S) :
    ∃ ra rs, KeyExt.addScalarMultiply C (Sparse.ops C) a k s = .ok ra ∧ KeyExt.subScalarMultiply C (Sparse.ops C) a k s = .ok rs ∧
      (ra.ZeroFree C ↔ a.coef C k + s ≠ 0) ∧ (rs.ZeroFree C ↔ a.coef C k - s ≠ 0) := by
  have hne : ∀ v, C.eq v C.zero = false ↔ v ≠ 0 := by
    intro v
    rw [← Bool.not_eq_true, hE, hC.zero]
  obtain ⟨ra, h1, _⟩ := sparse_upsert C a k (fun x => C.add x s) s
  obtain ⟨rs, h2, _⟩ := sparse_upsert C a k (fun x => C.sub x s) (C.uminus s)
  refine ⟨ra, rs, h1, h2, ?_, ?_⟩
  · rw [upsert_zeroFree C a ha hz k _ _ ra h1, hne]
    unfold Sparse.coef
    cases Sparse.find a.entries k <;> simp [hC.zero, hC.add]
  · rw [upsert_zeroFree C a ha hz k _ _ rs h2, hne]
    unfold Sparse.coef
    cases Sparse.find a.entries k <;> simp [hC.zero, hC.sub, hC.uminus]

/-- Adding -5 at the key of 5 leaves an explicit zero, adding 4 does not. -/
example : ∃ ra, KeyExt.addScalarMultiply intCoeff (Sparse.ops intCoeff) (⟨[(1, 5)]⟩ : Sparse Nat Int) 1 (-5) = .ok ra ∧ ¬ ra.ZeroFree intCoeff := by
  obtain ⟨ra, _, h1, _, h2, _⟩ := C27_key_ops_iff_partial intCoeff intCoeff_isRing intCoeff_eqLawful (⟨[(1, 5)]⟩ : Sparse Nat Int) (by unfold Sparse.WF; decide)
    (by unfold Sparse.ZeroFree; decide) 1 (-5)
  exact ⟨ra, h1, fun h => h2.1 h (by decide)⟩

omit [DecidableEq K] in
/-- C31, exactly when adding a scaled basis key to a dense vector is right: when the key is stored or the scalar is zero. -/
theorem C31_dense_right_iff_partial [CommRing S] (C : Coeff S R) (hC : C.IsRing) (B : Basis K) (d : Dense S) (k : K) (i : Nat) (hk : B.keyToIndex k = .ok i)
    (x : S) (hx : coefAt C B d k = .ok x) (s : S) :
    ((∃ r, KeyExt.addScalarMultiply C (Dense.ops C B) d k s = .ok r ∧ coefAt C B r k = .ok (x + s)) ↔ i < d.size ∨ s = 0) ∧
      ((∃ r, KeyExt.subScalarMultiply C (Dense.ops C B) d k s = .ok r ∧ coefAt C B r k = .ok (x - s)) ↔ i < d.size ∨ s = 0) := by
  have hget : ∀ e : Dense S, coefAt C B e k = .ok ((e.data[i]?).getD C.zero) := by
    intro e
    unfold coefAt
    rw [dense_get C B e k i hk]
    rfl
  have hx' : (d.data[i]?).getD C.zero = x := Res.ok.inj ((hget d).symm.trans hx)
  have key : ∀ (f : S → S) (v t : S) (_ : f x = t), (t = x ↔ s = 0) →
      ((∃ r, (do
        let (found, v') ← (Dense.ops C B).getMut d k f
        if found then return v' else (Dense.ops C B).insertSingle v' k v : Res (Dense S)) = .ok r ∧ coefAt C B r k = .ok t) ↔ i < d.size ∨ s = 0) := by
    intro f v t hf ht
    rw [dense_upsert C B d k i hk]
    by_cases hi : i < d.data.length
    · rw [if_pos hi]
      refine ⟨fun _ => .inl hi, fun _ => ⟨_, rfl, ?_⟩⟩
      rw [hget, Dense.writeSlice_data, List.getElem?_modify, List.getElem?_eq_getElem hi]
      rw [List.getElem?_eq_getElem hi] at hx'
      simp only [Option.getD_some] at hx'
      simp [hx', hf]
    · rw [if_neg hi]
      have hc : coefAt C B d.makeMut k = .ok x := by
        rw [hget, ← hx']
        congr 2
        cases hm : d.mode <;> simp [Dense.makeMut, hm]
      constructor
      · rintro ⟨r, h1, h2⟩
        cases h1
        rw [hc] at h2
        exact .inr (ht.1 (Res.ok.inj h2).symm)
      · rintro (h | h)
        · exact absurd h hi
        · exact ⟨_, rfl, by rw [hc, ht.2 h]⟩
  exact ⟨key _ _ _ (hC.add x s) (by simp), key _ _ _ (hC.sub x s) (by simp)⟩

example : ¬ ∃ r, KeyExt.addScalarMultiply intCoeff (Dense.ops intCoeff integerBasis) (.ofVec [1, 2]) 2 3 = .ok r ∧ coefAt intCoeff integerBasis r 2 = .ok (0 + 3) := by
  rw [(C31_dense_right_iff_partial intCoeff intCoeff_isRing integerBasis (.ofVec [1, 2]) 2 2 rfl 0 rfl 3).1]
  decide

/-- C32, exactly when subtracting a divided basis key is right: for sparse vectors when the key is missing, or twice the quotient is zero. -/
theorem C32_sub_divide_right_iff_partial [Field S] (C : Coeff S S) (hC : C.IsField) (a : Sparse K S) (k : K) (r : S) :
    (∃ b, KeyExt.subScalarDivide C (Sparse.ops C) a k r = .ok b ∧ b.coef C k = a.coef C k - 1 / r) ↔
      (Sparse.ops C).get a k = .ok none ∨ 2 * (1 / r) = 0 := by
  obtain ⟨b, h1, h2, _⟩ := C32_sub_divide_actual C a k r
  have e : Sparse.find b.entries k = _ := Res.ok.inj h2
  have hg : (Sparse.ops C).get a k = .ok (Sparse.find a.entries k) := rfl
  have key : b.coef C k = a.coef C k - 1 / r ↔ Sparse.find a.entries k = none ∨ 2 * (1 / r) = 0 := by
    unfold Sparse.coef
    rw [e]
    cases hf : Sparse.find a.entries k with
    | none => simp [hC.div, hC.mone, hC.zero, neg_div]
    | some x =>
      simp only [Option.elim_some, Option.getD_some, hC.sub, hC.div, hC.mone, reduceCtorEq, false_or]
      constructor
      · intro h
        linear_combination h
      · intro h
        linear_combination h
  rw [hg, Res.ok.injEq, ← key]
  constructor
  · rintro ⟨b', h1', h3⟩
    cases h1.symm.trans h1'
    exact h3
  · exact fun h => ⟨b, h1, h⟩

example : ¬ ∃ b, KeyExt.subScalarDivide (fieldCoeff ℚ) (Sparse.ops (fieldCoeff ℚ)) (⟨[(1, 5)]⟩ : Sparse Nat ℚ) 1 2 = .ok b ∧
    b.coef (fieldCoeff ℚ) 1 = (⟨[(1, 5)]⟩ : Sparse Nat ℚ).coef (fieldCoeff ℚ) 1 - 1 / 2 := by
  rw [C32_sub_divide_right_iff_partial (fieldCoeff ℚ) (fieldCoeff_isField ℚ)]
  rintro (h | h)
  · cases h
  · norm_num at h

omit [DecidableEq K] in
/-- C32, the same for dense vectors: when twice the quotient is zero, or the key is missing and the quotient is zero. -/
theorem C32_sub_divide_dense_right_iff_partial [Field S] (C : Coeff S S) (hC : C.IsField) (B : Basis K) (d : Dense S) (k : K) (i : Nat)
    (hk : B.keyToIndex k = .ok i) (x : S) (hx : coefAt C B d k = .ok x) (r : S) :
    (∃ b, KeyExt.subScalarDivide C (Dense.ops C B) d k r = .ok b ∧ coefAt C B b k = .ok (x - 1 / r)) ↔
      (i < d.size ∧ 2 * (1 / r) = 0) ∨ r = 0 := by
  have hget : ∀ e : Dense S, coefAt C B e k = .ok ((e.data[i]?).getD C.zero) := by
    intro e
    unfold coefAt
    rw [dense_get C B e k i hk]
    rfl
  have hx' : (d.data[i]?).getD C.zero = x := Res.ok.inj ((hget d).symm.trans hx)
  unfold KeyExt.subScalarDivide
  rw [dense_upsert C B d k i hk]
  by_cases hi : i < d.data.length
  · have hc : coefAt C B (d.writeSlice (d.data.modify i fun x => C.sub x (C.div C.mone r))) k = .ok (x + 1 / r) := by
      rw [hget, Dense.writeSlice_data, List.getElem?_modify, List.getElem?_eq_getElem hi]
      rw [List.getElem?_eq_getElem hi] at hx'
      simp only [Option.getD_some] at hx'
      simp [hx', hC.sub, hC.div, hC.mone, neg_div]
    rw [if_pos hi]
    constructor
    · rintro ⟨b, h1, h2⟩
      cases h1
      rw [hc] at h2
      refine .inl ⟨hi, ?_⟩
      linear_combination Res.ok.inj h2
    · intro h
      refine ⟨_, rfl, ?_⟩
      rw [hc]
      refine congrArg Res.ok ?_
      rcases h with h | h
      · linear_combination h.2
      · rw [h]; simp
  · have hc : coefAt C B d.makeMut k = .ok x := by
      rw [hget, ← hx']
      congr 2
      cases hm : d.mode <;> simp [Dense.makeMut, hm]
    rw [if_neg hi]
    constructor
    · rintro ⟨b, h1, h2⟩
      cases h1
      rw [hc] at h2
      have h3 : 1 / r = 0 := by linear_combination Res.ok.inj h2
      rw [one_div, inv_eq_zero] at h3
      exact .inr h3
    · rintro (h | h)
      · exact absurd h.1 hi
      · exact ⟨_, rfl, by rw [hc, h]; simp⟩

example : ¬ ∃ b, KeyExt.subScalarDivide (fieldCoeff ℚ) (Dense.ops (fieldCoeff ℚ) integerBasis) (.ofVec [1, 2]) 1 4 = .ok b ∧
    coefAt (fieldCoeff ℚ) integerBasis b 1 = .ok (2 - 1 / 4) := by
  rw [C32_sub_divide_dense_right_iff_partial (fieldCoeff ℚ) (fieldCoeff_isField ℚ) integerBasis (.ofVec [1, 2]) 1 1 rfl 2 rfl]
  norm_num

end

end RA
