import Verif.Proofs.Unwind
import Verif.Props.Closure

/-!
# What a product leaves behind when its closure panics (C95)

A panic unwinds through `multiply_and_add_into_impl` and `multiply_into_impl`.  If the caller catches it, `self` is still there.
-/

namespace RA
open Spec DenseAlg

section
variable {S R : Type} (C : Coeff S R) (p : Profile) (N : Nat)

/-- C95.  `multiply_and_add_into_impl`, for a closure that may panic at any call: the vector is grown first; then the values of the calls that returned, and no
others, have been added where they belong; the entries for the call that panicked and for the later ones are as they were.  The vector that is left has its
full size whenever the panic happens. -/
theorem C95_unwind (h2 : 2 ≤ N) (s a b : Dense S) (ds da db D : Nat) (hs : HasDegree N s ds) (ha : HasDegree N a da) (hb : HasDegree N b db)
    (hp : N ^ (min D (da + db) + 1) < 2 ^ 64) (hf : OperandsFit N a b da db (min D (da + db)))
    (hself : (s.size ≤ geomSum N (min D (da + db)) ∧ 1 ≤ min D (da + db)) ∨ geomSum N (min D (da + db) + 1) ≤ s.size)
    (T : Type) (func : ClosureU S T) (t : T) (q : Res Unit × List S × T)
    (hq : q = callUntil func t ((callOrder N (min D (da + db)) da db).map fun uv => C.mul (coef C N a uv.1) (coef C N b uv.2))) :
    ∃ left : Dense S, mulAddIntoU C p N func a b (some D) (s, t) = (q.1, (left, q.2.2)) ∧
      left.size = max s.size (geomSum N (min D (da + db) + 1)) ∧ ∀ w, ValidWord N w → stored N left w =
        if w.length ≤ min D (da + db) then
          some (((((callOrder N (min D (da + db)) da db).zip q.2.1).filter fun c => decide (c.1.1 ++ c.1.2 = w)).map (·.2)).foldl C.add (coef C N s w))
        else stored N s w := by
  subst hq
  obtain ⟨s1, h3, h4, h5⟩ := mulAddIntoU_eq C p N h2 s a b ds da db D hs.1 ha.1 hb.1 hs.2 ha.2 hb.2 hp hf.1 hf.2 hself
  refine ⟨_, ?_, addAll_ok C N s s1 a b (min D (da + db)) da db h3 h4 _⟩
  rw [h5, callUntil_eq, List.map_map]
  rfl

/-- C95.  For all operands, also those for which the product itself panics or reads the wrong entries: whether and how the product ends, and the vector if it
returns, are those of the model of `C91`. -/
theorem C95_outcome {T : Type} (func : ClosureU S T) (s a b : Dense S) (D : Option Nat) (t : T) :
    Unw.forget (mulAddIntoU C p N func a b D (s, t)) = (mulAddIntoS C p N (fun t x => Unw.forget (func t x)) s a b D t >>= fun c => .ok ((), c)) ∧
    Unw.forget (mulIntoU C p N func b D (s, t)) = (mulIntoS C p N (fun t x => Unw.forget (func t x)) s b D t >>= fun c => .ok ((), c)) :=
  ⟨mulAddIntoU_forget C p N func a b D (s, t), mulIntoU_forget C p N func b D (s, t)⟩

/-- A closure that panics at its call number `n`, counted from 0, and applies `f` in the others. -/
def panicAt (f : S → S) (n : Nat) : ClosureU S Nat := fun k x => if k = n then (.panic, k) else (.ok (f x), k + 1)

theorem callUntil_panicAt (f : S → S) (n : Nat) (xs : List S) (k : Nat) (hk : k ≤ n) (hn : n < k + xs.length) :
    callUntil (panicAt f n) k xs = (.panic, (xs.take (n - k)).map f, n) := by
  induction xs generalizing k with
  | nil => simp at hn; omega
  | cons x xs ih =>
    unfold callUntil
    by_cases h : k = n
    · subst h
      simp [panicAt]
    · rw [show panicAt f n k x = (.ok (f x), k + 1) by simp [panicAt, h]]
      simp only
      rw [ih (k + 1) (by omega) (by simp at hn; omega), show n - k = n - (k + 1) + 1 by omega, List.take_succ_cons, List.map_cons]

/-- C95.  A closure that panics at call `n`: the products of the first `n` pairs are in, nothing else. -/
theorem C95_panic_at (h2 : 2 ≤ N) (f : S → S) (s a b : Dense S) (ds da db D n : Nat) (hs : HasDegree N s ds) (ha : HasDegree N a da) (hb : HasDegree N b db)
    (hp : N ^ (min D (da + db) + 1) < 2 ^ 64) (hf : OperandsFit N a b da db (min D (da + db)))
    (hself : (s.size ≤ geomSum N (min D (da + db)) ∧ 1 ≤ min D (da + db)) ∨ geomSum N (min D (da + db) + 1) ≤ s.size)
    (hn : n < (callOrder N (min D (da + db)) da db).length) :
    ∃ left : Dense S, mulAddIntoU C p N (panicAt f n) a b (some D) (s, 0) = (.panic, (left, n)) ∧
      left.size = max s.size (geomSum N (min D (da + db) + 1)) ∧ ∀ w, ValidWord N w → w.length ≤ min D (da + db) → stored N left w =
        some (((((callOrder N (min D (da + db)) da db).take n).filter fun uv => decide (uv.1 ++ uv.2 = w)).map fun uv =>
          f (C.mul (coef C N a uv.1) (coef C N b uv.2))).foldl C.add (coef C N s w)) := by
  obtain ⟨left, h3, h4, h5⟩ := C95_unwind C p N h2 s a b ds da db D hs ha hb hp hf hself Nat (panicAt f n) 0 _ rfl
  rw [callUntil_panicAt f n _ 0 (Nat.zero_le _) (by simpa using hn)] at h3 h5
  refine ⟨left, h3, h4, fun w hw hl => ?_⟩
  rw [h5 w hw, if_pos hl]
  have key : ∀ (L : List (List Nat × List Nat)) (g : List Nat × List Nat → S) (m : Nat),
      ((L.zip (((L.map g).take m).map f)).filter fun c => decide (c.1.1 ++ c.1.2 = w)).map (·.2) =
        ((L.take m).filter fun uv => decide (uv.1 ++ uv.2 = w)).map fun uv => f (g uv) := by
    intro L g
    induction L with
    | nil => intro m; simp
    | cons uv L ih =>
      intro m
      cases m with
      | zero => simp
      | succ m =>
        rw [List.map_cons, List.take_succ_cons, List.map_cons, List.zip_cons_cons, List.filter_cons, List.take_succ_cons, List.filter_cons]
        simp only
        split_ifs
        · rw [List.map_cons, List.map_cons, ih]
        · exact ih m
  rw [Nat.sub_zero, key]

theorem lookup_index (w : List Nat) (hw : ValidWord N w) (L : List (List Nat)) (hL : ∀ u ∈ L, ValidWord N u) (ys : List S) :
    ((L.map (wordIndex N)).zip ys).lookup (wordIndex N w) = (L.zip ys).lookup w := by
  induction L generalizing ys with
  | nil => rfl
  | cons u L ih =>
    cases ys with
    | nil => rfl
    | cons y ys =>
      rw [List.map_cons, List.zip_cons_cons, List.zip_cons_cons, List.lookup_cons, List.lookup_cons, ih (fun u hu => hL u (by simp [hu]))]
      have : (wordIndex N w == wordIndex N u) = (w == u) := by
        by_cases h : w = u
        · rw [h]
          simp
        · have h' : wordIndex N w ≠ wordIndex N u := fun e => h (wordIndex_inj hw (hL u (by simp)) e)
          simp [h, h']
      rw [this]

/-- C95, `multiply_into_impl` with a constant other than 0 and 1 as right factor: the words whose call returned hold the new value, the others the old one. -/
theorem C95_inplace_scalar (h2 : 2 ≤ N) (a b : Dense S) (da D : Nat) (ha : FullTo N a da) (x : S)
    (hx : b.data = [x]) (hz : C.eq x C.zero = false) (h1 : C.eq x C.one = false) (T : Type) (func : ClosureU S T) (t : T) (q : Res Unit × List S × T)
    (hq : q = callUntil func t ((scaleOrder N (min D da)).map fun w => C.mul (coef C N a w) x)) :
    ∃ left : Dense S, mulIntoU C p N func b (some D) (a, t) = (q.1, (left, q.2.2)) ∧ left.size = a.size ∧ ∀ w, ValidWord N w →
      stored N left w = (((scaleOrder N (min D da)).zip q.2.1).lookup w).or (stored N a w) := by
  subst hq
  have hlen : a.data.length = geomSum N (da + 1) := ha.1
  have hb : FullTo N b 0 := ⟨by unfold Dense.size; rw [hx]; rfl, TensorBasis.pow_lt64_mono h2 (by omega) ha.2⟩
  have hs : geomSum N (min D da + 1) ≤ a.data.length := by rw [hlen]; exact geomSum_mono (by omega)
  have ho : offsetAssign C b = (0, true) := by
    unfold offsetAssign
    rw [hx]
    simp [hz, h1]
  have b1 := TensorBasis.deg_lt64 h2 ha.2
  have e : mulIntoU C p N func b (some D) (a, t) = (List.range' 1 (min D da)).reverse.foldlM (mulIntoDegreeU C p N func b 0 true da 0) () (a, t) := by
    unfold mulIntoU
    rw [Unw.get_bind]
    simp only
    rw [degree_ok p N h2 a da (ha.hasDegree h2).1 ha.2, degree_ok p N h2 b 0 (hb.hasDegree h2).1 hb.2]
    simp only [Unw.lift_ok_bind]
    rw [maxDeg_ok p D da 0 (by omega), Nat.add_zero, Unw.lift_ok_bind, Unw.bind_apply]
    have hg : growToU C p N (min D da) (a, t) = (.ok (), (a, t)) := by
      unfold growToU
      rw [Unw.get_bind]
      simp only [growTo_same C p N h2 a da _ (ha.hasDegree h2).1 ha.2 hs, Unw.lift_ok_bind]
      rfl
    rw [hg, ho]
  rw [e]
  rcases Nat.eq_zero_or_pos (min D da) with h0 | hm
  · rw [h0]
    exact ⟨a, rfl, rfl, fun w _ => rfl⟩
  · obtain ⟨hn, hlt⟩ := scaleOrder_nodup N (min D da)
    have hlt' : ∀ i ∈ (scaleOrder N (min D da)).map (wordIndex N), i < a.data.length := fun i hi => by have := hlt i hi; omega
    rw [mulIntoLoopU_const C p N h2 func x b hx da (min D da) a t (TensorBasis.pow_lt64_mono h2 (by omega) ha.2) (by omega) hs hm]
    unfold asMut
    rw [setUntil_eq C func x a _ hn a.data hlt' t, List.map_map]
    refine ⟨_, rfl, ?_, fun w hw => ?_⟩
    · unfold Dense.size
      rw [Dense.writeSlice_data, setAll_length]
    · unfold stored
      rw [Dense.writeSlice_data, setAll_get _ hn _ _ hlt', lookup_index N w hw _ (fun u hu => ((mem_scaleOrder N).1 hu).1)]
      rfl

end

/-! ## Examples -/

/-- `(2 + e1) * (5 + e2)` over two letters to degree one, into `7 + 7 e1 + 7 e2`, with a panic at the third call.  The calls before it are for `(1, ∅)` and
`(2, ∅)`; the constant is not updated. -/
example : mulAddIntoU intCoeff .debug 2 (panicAt id 2) (.ofVec [2, 1, 0]) (.ofVec [5, 0, 1]) (some 1) (.ofVec [7, 7, 7], 0) =
    (.panic, (.ofVec [7, 12, 7], 2)) := by decide +kernel

example : ∃ left : Dense Int, mulAddIntoU intCoeff .debug 2 (panicAt id 2) (.ofVec [2, 1, 0]) (.ofVec [5, 0, 1]) (some 1) (.ofVec [7, 7, 7], 0) =
      (.panic, (left, 2)) ∧ left.size = max 3 (geomSum 2 (min 1 (1 + 1) + 1)) ∧ ∀ w, ValidWord 2 w → w.length ≤ min 1 (1 + 1) → stored 2 left w =
        some (((((callOrder 2 (min 1 (1 + 1)) 1 1).take 2).filter fun uv => decide (uv.1 ++ uv.2 = w)).map fun uv =>
          id (intCoeff.mul (coef intCoeff 2 (.ofVec [2, 1, 0]) uv.1) (coef intCoeff 2 (.ofVec [5, 0, 1]) uv.2))).foldl intCoeff.add
          (coef intCoeff 2 (.ofVec [7, 7, 7]) w)) :=
  C95_panic_at intCoeff .debug 2 (by omega) id (.ofVec [7, 7, 7]) (.ofVec [2, 1, 0]) (.ofVec [5, 0, 1]) 1 1 1 1 2 ⟨by decide, by decide⟩
    ⟨by decide, by decide⟩ ⟨by decide, by decide⟩ (by decide) ⟨by decide, by decide⟩ (Or.inr (by decide)) (by decide +kernel)

/-- A panic in the first call leaves an empty vector grown to the dimension of the product, not empty. -/
example : mulAddIntoU intCoeff .debug 2 (panicAt id 0) (.ofVec [2, 1, 0]) (.ofVec [5, 0, 1]) (some 1) (.new, 0) = (.panic, (.ofVec [0, 0, 0], 0)) := by
  decide +kernel

/-- Running the product again after such a panic counts the finished part twice: `5` and `5` at the first letter. -/
example : mulAddIntoU intCoeff .debug 2 (panicAt id 100) (.ofVec [2, 1, 0]) (.ofVec [5, 0, 1]) (some 1)
    ((mulAddIntoU intCoeff .debug 2 (panicAt id 2) (.ofVec [2, 1, 0]) (.ofVec [5, 0, 1]) (some 1) (.new, 0)).2.1, 0) =
    (.ok (), (.ofVec [10, 5 + 5, 2], 5)) := by decide +kernel

/-- The product in place by 3, with a panic at the second of the words `1` and `2`. -/
example : mulIntoU intCoeff .debug 2 (panicAt id 1) (.ofVec [3]) (some 1) (.ofVec [2, 1, 4], 0) = (.panic, (.ofVec [2, 3, 4], 1)) := by decide +kernel

example : ∃ left : Dense Int, mulIntoU intCoeff .debug 2 (panicAt id 1) (.ofVec [3]) (some 5) (.ofVec [2, 1, 4], 0) =
      ((callUntil (panicAt id 1) 0 ((scaleOrder 2 (min 5 1)).map fun w => intCoeff.mul (coef intCoeff 2 (.ofVec [2, 1, 4]) w) 3)).1,
        (left, (callUntil (panicAt id 1) 0 ((scaleOrder 2 (min 5 1)).map fun w => intCoeff.mul (coef intCoeff 2 (.ofVec [2, 1, 4]) w) 3)).2.2)) ∧
      left.size = 3 ∧ ∀ w, ValidWord 2 w → stored 2 left w =
        (((scaleOrder 2 (min 5 1)).zip (callUntil (panicAt id 1) 0
          ((scaleOrder 2 (min 5 1)).map fun w => intCoeff.mul (coef intCoeff 2 (.ofVec [2, 1, 4]) w) 3)).2.1).lookup w).or (stored 2 (.ofVec [2, 1, 4]) w) :=
  C95_inplace_scalar intCoeff .debug 2 (by omega) (.ofVec [2, 1, 4]) (.ofVec [3]) 1 5 ⟨rfl, by decide⟩ 3 rfl rfl rfl Nat (panicAt id 1) 0 _ rfl

/-- A borrowed vector has been copied by the time of the first call. -/
example : (mulAddIntoU intCoeff .debug 2 (panicAt id 0) (.ofVec [2, 1, 0]) (.ofVec [5, 0, 1]) (some 1) (⟨.borrowed, [7, 7, 7], []⟩, 0)).2.1.mode ≠ .borrowed := by
  decide +kernel

end RA
