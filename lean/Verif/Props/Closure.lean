import Verif.Proofs.Closure
import Verif.Props.Algebra

/-!
# Products with a closure that has a state (C91)

`multiply_and_add_into_impl` and `multiply_into_impl` are required methods of the public trait `Algebra` and take any `FnMut(&S) -> S`.
-/

namespace RA
open Spec DenseAlg

section
variable {S R : Type} (C : Coeff S R) (p : Profile) (N : Nat)

/-- The vector after the calls have returned `ys`. -/
theorem addAll_ok (s s1 a b : Dense S) (M da db : Nat) (h3 : s1.data.length = max s.data.length (geomSum N (M + 1)))
    (h4 : ∀ w, ValidWord N w → at? N s1.data w = if w.length ≤ M then some ((at? N s.data w).getD C.zero) else at? N s.data w) (ys : List S) :
    (s1.makeMut.writeSlice ((((callOrder N M da db).map (callOf C N a b)).zip ys).foldl (addOne C) s1.data)).size = max s.size (geomSum N (M + 1)) ∧
      ∀ w, ValidWord N w → stored N (s1.makeMut.writeSlice ((((callOrder N M da db).map (callOf C N a b)).zip ys).foldl (addOne C) s1.data)) w =
        if w.length ≤ M then
          some (((((callOrder N M da db).zip ys).filter fun c => decide (c.1.1 ++ c.1.2 = w)).map (·.2)).foldl C.add (coef C N s w))
        else stored N s w := by
  refine ⟨?_, fun w hw => ?_⟩
  · unfold Dense.size
    rw [Dense.writeSlice_data, addOne_length, h3]
  · unfold stored
    rw [Dense.writeSlice_data, addOne_get]
    have hfil : (((((callOrder N M da db).map (callOf C N a b)).zip ys).filter fun c => decide (c.1.2 = wordIndex N w)).map (·.2)) =
        ((((callOrder N M da db).zip ys).filter fun c => decide (c.1.1 ++ c.1.2 = w)).map (·.2)) := by
      have hmem : ∀ uv ∈ callOrder N M da db, ValidWord N uv.1 ∧ ValidWord N uv.2 := fun uv h =>
        ⟨((mem_callOrder N).1 h).1, ((mem_callOrder N).1 h).2.1⟩
      generalize callOrder N M da db = L at hmem
      induction L generalizing ys with
      | nil => rfl
      | cons uv L ih =>
        cases ys with
        | nil => rfl
        | cons y ys =>
          have hv := hmem uv (by simp)
          have hiff : (callOf C N a b uv).2 = wordIndex N w ↔ uv.1 ++ uv.2 = w := by
            constructor
            · intro h
              refine wordIndex_inj ?_ hw h
              intro l hl
              rcases List.mem_append.1 hl with hl | hl
              · exact hv.1 l hl
              · exact hv.2 l hl
            · rintro rfl
              rfl
          rw [List.map_cons, List.zip_cons_cons, List.zip_cons_cons, List.filter_cons, List.filter_cons]
          simp only [hiff]
          split_ifs
          · rw [List.map_cons, List.map_cons, ih ys (fun uv h => hmem uv (by simp [h]))]
          · exact ih ys (fun uv h => hmem uv (by simp [h]))
    rw [hfil]
    have h6 := h4 w hw
    unfold at? at h6
    rw [h6]
    split_ifs with hlen
    · rfl
    · have hno : (((callOrder N M da db).zip ys).filter fun c => decide (c.1.1 ++ c.1.2 = w)) = [] := by
        rw [List.filter_eq_nil_iff]
        rintro ⟨uv, y⟩ hc
        have := (mem_callOrder N).1 (List.of_mem_zip hc).1
        simp only [decide_eq_true_eq]
        rintro rfl
        rw [List.length_append] at hlen
        omega
      rw [hno]
      simp

/-- C91.  `multiply_and_add_into_impl` with any closure, whatever its state and whether or not it returns.  The closure is called on `a_u * b_v` for the
pairs `(u, v)` of `callOrder`, in that order, each call seeing the state the one before left; if a call does not return, neither does the product, with the
same outcome.  Otherwise the values `ys` are added to the old coefficient at `u v`, in the order of the calls, and nothing else changes but for the zeros
appended up to degree `M`. -/
theorem C91_closure (h2 : 2 ≤ N) (s a b : Dense S) (ds da db D : Nat) (hs : HasDegree N s ds) (ha : HasDegree N a da) (hb : HasDegree N b db)
    (hp : N ^ (min D (da + db) + 1) < 2 ^ 64) (hf : OperandsFit N a b da db (min D (da + db)))
    (hself : (s.size ≤ geomSum N (min D (da + db)) ∧ 1 ≤ min D (da + db)) ∨ geomSum N (min D (da + db) + 1) ≤ s.size) :
    ∃ build : List S → Dense S,
      (∀ (T : Type) (func : Closure S T) (t : T), mulAddIntoS C p N func s a b (some D) t =
        callAll func t ((callOrder N (min D (da + db)) da db).map fun uv => C.mul (coef C N a uv.1) (coef C N b uv.2)) >>= fun r =>
          .ok (build r.1, r.2)) ∧
      ∀ ys, (build ys).size = max s.size (geomSum N (min D (da + db) + 1)) ∧ ∀ w, ValidWord N w → stored N (build ys) w =
        if w.length ≤ min D (da + db) then
          some (((((callOrder N (min D (da + db)) da db).zip ys).filter fun c => decide (c.1.1 ++ c.1.2 = w)).map (·.2)).foldl C.add (coef C N s w))
        else stored N s w := by
  obtain ⟨s1, h3, h4, h5⟩ := mulAddIntoS_eq C p N h2 s a b ds da db D hs.1 ha.1 hb.1 hs.2 ha.2 hb.2 hp hf.1 hf.2 hself
  refine ⟨fun ys => s1.makeMut.writeSlice ((((callOrder N (min D (da + db)) da db).map (callOf C N a b)).zip ys).foldl (addOne C) s1.data), ?_, ?_⟩
  · intro T func t
    rw [h5, callAll_eq, bind_assoc, List.map_map]
    rfl
  · exact addAll_ok C N s s1 a b (min D (da + db)) da db h3 h4

/-- C91.  The calls are for exactly the pairs of stored words whose product is kept, each once. -/
theorem C91_order (M da db : Nat) : (callOrder N M da db).Nodup ∧ ∀ u v, (u, v) ∈ callOrder N M da db ↔
    ValidWord N u ∧ ValidWord N v ∧ u.length ≤ da ∧ v.length ≤ db ∧ u.length + v.length ≤ M :=
  ⟨callOrder_nodup N M da db, fun _ _ => mem_callOrder N⟩

/-- C91.  The number of calls. -/
theorem C91_count (M da db : Nat) :
    (callOrder N M da db).length = ((List.range (M + 1)).map fun o => (min o da + 1 - (o - db)) * N ^ o).sum := by
  unfold callOrder
  rw [List.length_flatMap, List.map_reverse, List.sum_reverse]
  congr 1
  refine List.map_congr_left fun o _ => ?_
  rw [List.length_flatMap, List.map_reverse, List.sum_reverse]
  have : (List.range' (o - db) (min o da + 1 - (o - db))).map (fun k => (wordPairs N k (o - k)).length) =
      (List.range' (o - db) (min o da + 1 - (o - db))).map fun _ => N ^ o := by
    refine List.map_congr_left fun k hk => ?_
    rw [List.mem_range'_1] at hk
    rw [wordPairs_length, show k + (o - k) = o by omega]
  rw [this]
  simp

/-- C91.  A closure without state gives the product of `C33`-`C36`, and keeps its state: nothing is assumed of the operands. -/
theorem C91_pure {T : Type} (f : S → S) (s a b : Dense S) (D : Option Nat) (t : T) :
    mulAddIntoS C p N (fun t x => .ok (f x, t)) s a b D t = (mulAddInto C p N s a b f D >>= fun r => .ok (r, t)) ∧
    mulIntoS C p N (fun t x => .ok (f x, t)) s b D t = (mulInto C p N s b f D >>= fun r => .ok (r, t)) := by
  constructor
  · refine (mulAddIntoS_pure C p N f s a b D t).trans ?_
    cases mulAddInto C p N s a b f D <;> rfl
  · refine (mulIntoS_pure C p N f s b D t).trans ?_
    cases mulInto C p N s b f D <;> rfl

/-- C91.  A closure that panics on its call number `n` makes the product panic exactly when there are more than `n` calls. -/
theorem C91_panic (h2 : 2 ≤ N) (f : S → S) (s a b : Dense S) (ds da db D n : Nat) (hs : HasDegree N s ds) (ha : HasDegree N a da) (hb : HasDegree N b db)
    (hp : N ^ (min D (da + db) + 1) < 2 ^ 64) (hf : OperandsFit N a b da db (min D (da + db)))
    (hself : (s.size ≤ geomSum N (min D (da + db)) ∧ 1 ≤ min D (da + db)) ∨ geomSum N (min D (da + db) + 1) ≤ s.size) :
    mulAddIntoS C p N (fun t x => if t = n then .panic else .ok (f x, t + 1)) s a b (some D) 0 = .panic ↔
      n < (callOrder N (min D (da + db)) da db).length := by
  obtain ⟨build, h3, _⟩ := C91_closure C p N h2 s a b ds da db D hs ha hb hp hf hself
  rw [h3]
  have key : ∀ (xs : List S) (t : Nat), t ≤ n → (callAll (fun t x => if t = n then Res.panic else .ok (f x, t + 1)) t xs = .panic ∧ n < t + xs.length) ∨
      ((∃ r, callAll (fun t x => if t = n then Res.panic else .ok (f x, t + 1)) t xs = .ok r) ∧ t + xs.length ≤ n) := by
    intro xs
    induction xs with
    | nil => intro t ht; exact Or.inr ⟨⟨_, rfl⟩, by simpa using ht⟩
    | cons x xs ih =>
      intro t ht
      unfold callAll
      by_cases h : t = n
      · subst h
        left
        simp
      · simp only [if_neg h, Res.bind_ok]
        rcases ih (t + 1) (by omega) with ⟨h4, h5⟩ | ⟨⟨r, h4⟩, h5⟩
        · left
          rw [h4]
          exact ⟨rfl, by simp; omega⟩
        · right
          rw [h4]
          exact ⟨⟨_, rfl⟩, by simp; omega⟩
  rcases key ((callOrder N (min D (da + db)) da db).map fun uv => C.mul (coef C N a uv.1) (coef C N b uv.2)) 0 (Nat.zero_le _) with
    ⟨h4, h5⟩ | ⟨⟨r, h4⟩, h5⟩
  · rw [h4]
    simp at h5
    simp [h5]
  · rw [h4]
    simp at h5
    simp [h5]

/-- C91, `multiply_into_impl` with any closure and a constant other than 0 and 1 as right factor (the only one besides 1 for which it does not read the
wrong entries, C37).  The closure is called once for each word of length 1 to `min(D, da)`, longer words first, and its value replaces the coefficient. -/
theorem C91_inplace_scalar (h2 : 2 ≤ N) (a b : Dense S) (da D : Nat) (ha : FullTo N a da) (x : S)
    (hx : b.data = [x]) (hz : C.eq x C.zero = false) (h1 : C.eq x C.one = false) :
    ∃ build : List S → Dense S,
      (∀ (T : Type) (func : Closure S T) (t : T), mulIntoS C p N func a b (some D) t =
        callAll func t ((scaleOrder N (min D da)).map fun w => C.mul (coef C N a w) x) >>= fun r => .ok (build r.1, r.2)) ∧
      ∀ ys, ys.length = (scaleOrder N (min D da)).length → (build ys).size = a.size ∧ ∀ w, ValidWord N w → stored N (build ys) w =
        if 1 ≤ w.length ∧ w.length ≤ min D da then ((scaleOrder N (min D da)).zip ys).lookup w else stored N a w := by
  have hlen : a.data.length = geomSum N (da + 1) := ha.1
  have hb : FullTo N b 0 := ⟨by unfold Dense.size; rw [hx]; rfl, TensorBasis.pow_lt64_mono h2 (by omega) ha.2⟩
  have hs : geomSum N (min D da + 1) ≤ a.data.length := by rw [hlen]; exact geomSum_mono (by omega)
  have ho : offsetAssign C b = (0, true) := by
    unfold offsetAssign
    rw [hx]
    simp [hz, h1]
  have b1 := TensorBasis.deg_lt64 h2 ha.2
  refine ⟨scaleBuild N (min D da) a, fun T func t => ?_, fun ys hy => scaleBuild_ok N (min D da) a ys hs hy⟩
  unfold mulIntoS
  rw [degree_ok p N h2 a da (ha.hasDegree h2).1 ha.2, degree_ok p N h2 b 0 (hb.hasDegree h2).1 hb.2]
  simp only [Res.bind_ok]
  rw [maxDeg_ok p D da 0 (by omega), Nat.add_zero]
  simp only [Res.bind_ok]
  rw [growTo_same C p N h2 a da _ (ha.hasDegree h2).1 ha.2 hs]
  simp only [Res.bind_ok]
  rw [ho]
  exact mulIntoLoopS_const C p N h2 func x b hx da (min D da) a t (TensorBasis.pow_lt64_mono h2 (by omega) ha.2) (by omega) hs

/-- C91.  The words of the calls of `C91_inplace_scalar`, each once. -/
theorem C91_inplace_order (m : Nat) : (scaleOrder N m).Nodup ∧ ∀ w, w ∈ scaleOrder N m ↔ ValidWord N w ∧ 1 ≤ w.length ∧ w.length ≤ m := by
  refine ⟨?_, fun w => mem_scaleOrder N⟩
  induction m with
  | zero => exact List.nodup_nil
  | succ m ih =>
    rw [scaleOrder, List.nodup_append]
    refine ⟨wordsOfLength_nodup N _, ih, ?_⟩
    rintro u hu v hv rfl
    have := mem_wordsOfLength.1 hu
    have := (mem_scaleOrder N).1 hv
    omega

/-- C91.  With the right factor 1 the closure is not called. -/
theorem C91_inplace_one (h2 : 2 ≤ N) (a b : Dense S) (da D : Nat) (ha : FullTo N a da) (x : S) (hx : b.data = [x]) (hz : C.eq x C.zero = false)
    (h1 : C.eq x C.one = true) (T : Type) (func : Closure S T) (t : T) : mulIntoS C p N func a b (some D) t = .ok (a, t) := by
  have hlen : a.data.length = geomSum N (da + 1) := ha.1
  have hb : FullTo N b 0 := ⟨by unfold Dense.size; rw [hx]; rfl, TensorBasis.pow_lt64_mono h2 (by omega) ha.2⟩
  have hs : geomSum N (min D da + 1) ≤ a.data.length := by rw [hlen]; exact geomSum_mono (by omega)
  have ho : offsetAssign C b = (1, false) := by
    unfold offsetAssign
    rw [hx]
    simp [hz, h1]
  have b1 := TensorBasis.deg_lt64 h2 ha.2
  have hL : ∀ L : List Nat, (∀ o ∈ L, 1 ≤ o) → L.foldlM (mulIntoDegreeS C p N func b 1 false da 0) (a, t) = .ok (a, t) := by
    intro L hL
    induction L with
    | nil => rfl
    | cons o L ih =>
      have ho1 := hL o (by simp)
      have h1 : mulIntoDegreeS C p N func b 1 false da 0 (a, t) o = .ok (a, t) := by
        unfold mulIntoDegreeS
        rw [subW_ok (Nat.zero_le _), subW_ok ho1]
        simp only [Res.bind_ok, Bool.false_eq_true, if_false, Nat.sub_zero]
        rw [subW_ok (Nat.zero_le _)]
        simp only [Res.bind_ok, Nat.sub_zero]
        rw [show min (o - 1) da + 1 - o = 0 by omega]
        rfl
      rw [List.foldlM_cons, h1, Res.bind_ok]
      exact ih fun o ho => hL o (by simp [ho])
  unfold mulIntoS
  rw [degree_ok p N h2 a da (ha.hasDegree h2).1 ha.2, degree_ok p N h2 b 0 (hb.hasDegree h2).1 hb.2]
  simp only [Res.bind_ok]
  rw [maxDeg_ok p D da 0 (by omega), Nat.add_zero]
  simp only [Res.bind_ok]
  rw [growTo_same C p N h2 a da _ (ha.hasDegree h2).1 ha.2 hs]
  simp only [Res.bind_ok]
  rw [ho]
  exact hL _ (by intro o ho; rw [List.mem_reverse, List.mem_range'_1] at ho; omega)

end

/-! ## Examples -/

/-- A closure that numbers its calls: the `n`-th call gives `100 n + x`. -/
def exNumber : Closure Int Int := fun n x => .ok (100 * n + x, n + 1)

/-- `(2 + e1) * (5 + e2)` over two letters, to degree one: the calls are for `(1, ∅)`, `(2, ∅)`, `(∅, 1)`, `(∅, 2)`, `(∅, ∅)`. -/
example : callOrder 2 1 1 1 = [([1], []), ([2], []), ([], [1]), ([], [2]), ([], [])] := by decide +kernel

example : mulAddIntoS intCoeff .debug 2 exNumber .new (.ofVec [2, 1, 0]) (.ofVec [5, 0, 1]) (some 1) 0 =
    .ok (.ofVec [400 + 10, (0 + 5) + (200 + 0), (100 + 0) + (300 + 2)], 5) := by decide +kernel

example : ∃ build : List Int → Dense Int,
    (∀ (T : Type) (func : Closure Int T) (t : T), mulAddIntoS intCoeff .release 2 func .new (.ofVec [2, 1, 0]) (.ofVec [5, 0, 1]) (some 1) t =
      callAll func t ((callOrder 2 (min 1 (1 + 1)) 1 1).map fun uv =>
        intCoeff.mul (coef intCoeff 2 (.ofVec [2, 1, 0]) uv.1) (coef intCoeff 2 (.ofVec [5, 0, 1]) uv.2)) >>= fun r => .ok (build r.1, r.2)) ∧
    ∀ ys, (build ys).size = max 0 (geomSum 2 (min 1 (1 + 1) + 1)) ∧ ∀ w, ValidWord 2 w → stored 2 (build ys) w =
      if w.length ≤ min 1 (1 + 1) then
        some (((((callOrder 2 (min 1 (1 + 1)) 1 1).zip ys).filter fun c => decide (c.1.1 ++ c.1.2 = w)).map (·.2)).foldl intCoeff.add
          (coef intCoeff 2 .new w))
      else stored 2 .new w :=
  C91_closure intCoeff .release 2 (by omega) .new (.ofVec [2, 1, 0]) (.ofVec [5, 0, 1]) 0 1 1 1 ⟨Or.inl ⟨rfl, rfl⟩, by decide⟩ ⟨by decide, by decide⟩
    ⟨by decide, by decide⟩ (by decide) ⟨by decide, by decide⟩ (Or.inl ⟨by decide, by decide⟩)

example : (callOrder 2 2 1 1).length = 9 := (C91_count 2 2 1 1).trans (by decide)

/-- Nine calls: a panic in the last one is a panic of the product, a closure that would panic on a tenth call is never in that position. -/
example : mulAddIntoS intCoeff .debug 2 (fun t x => if t = 8 then .panic else .ok (x, t + 1)) .new (.ofVec [2, 1, 0]) (.ofVec [5, 0, 1]) (some 2) 0 = .panic :=
  (C91_panic intCoeff .debug 2 (by omega) id .new (.ofVec [2, 1, 0]) (.ofVec [5, 0, 1]) 0 1 1 2 8 ⟨Or.inl ⟨rfl, rfl⟩, by decide⟩ ⟨by decide, by decide⟩
    ⟨by decide, by decide⟩ (by decide) ⟨by decide, by decide⟩ (Or.inl ⟨by decide, by decide⟩)).2 (by rw [C91_count]; decide)

example : mulAddIntoS intCoeff .debug 2 (fun t x => if t = 9 then .panic else .ok (x, t + 1)) .new (.ofVec [2, 1, 0]) (.ofVec [5, 0, 1]) (some 2) 0 =
    .ok (.ofVec [10, 5, 2, 0, 1, 0, 0], 9) := by decide +kernel

/-- The in-place product calls the closure too, once for each letter: `func(1 * 3)`, `func(4 * 3)`. -/
example : mulIntoS intCoeff .debug 2 exNumber (.ofVec [2, 1, 4]) (.ofVec [3]) (some 1) 0 = .ok (.ofVec [2, 0 + 3, 100 + 12], 2) := by decide +kernel

example : mulIntoS intCoeff .debug 2 (fun t x => .ok (x, t)) (.ofVec [2, 1, 4]) (.ofVec [3]) (some 1) "state" =
    (mulInto intCoeff .debug 2 (.ofVec [2, 1, 4]) (.ofVec [3]) id (some 1) >>= fun r => .ok (r, "state")) :=
  (C91_pure intCoeff .debug 2 id (.ofVec [2, 1, 4]) .new (.ofVec [3]) (some 1) "state").2

example : scaleOrder 2 2 = [[1, 1], [1, 2], [2, 1], [2, 2], [1], [2]] := by decide +kernel

example : ∃ build : List Int → Dense Int,
    (∀ (T : Type) (func : Closure Int T) (t : T), mulIntoS intCoeff .debug 2 func (.ofVec [2, 1, 4]) (.ofVec [3]) (some 5) t =
      callAll func t ((scaleOrder 2 (min 5 1)).map fun w => intCoeff.mul (coef intCoeff 2 (.ofVec [2, 1, 4]) w) 3) >>= fun r => .ok (build r.1, r.2)) ∧
    ∀ ys, ys.length = (scaleOrder 2 (min 5 1)).length → (build ys).size = 3 ∧ ∀ w, ValidWord 2 w → stored 2 (build ys) w =
      if 1 ≤ w.length ∧ w.length ≤ min 5 1 then ((scaleOrder 2 (min 5 1)).zip ys).lookup w else stored 2 (.ofVec [2, 1, 4]) w :=
  C91_inplace_scalar intCoeff .debug 2 (by omega) (.ofVec [2, 1, 4]) (.ofVec [3]) 1 5 ⟨rfl, by decide⟩ 3 rfl rfl rfl

example : mulIntoS intCoeff .debug 2 (fun (_ : Unit) _ => .panic) (.ofVec [2, 1, 4]) (.ofVec [1]) (some 5) () = .ok (.ofVec [2, 1, 4], ()) :=
  C91_inplace_one intCoeff .debug 2 (by omega) (.ofVec [2, 1, 4]) (.ofVec [1]) 1 5 ⟨rfl, by decide⟩ 1 rfl rfl rfl Unit _ ()

end RA
