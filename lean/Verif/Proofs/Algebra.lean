import Verif.Model.Algebra
import Verif.Proofs.TensorBasis
import Verif.Proofs.Dense
import Verif.Proofs.Conv

/-!
# Lemmas about the product of dense tensors
-/

namespace RA
open Spec

namespace DenseAlg
variable {S R : Type} (C : Coeff S R) (p : Profile) (N : Nat)

/-! ## The kernel -/

theorem foldlM_pairs {A B T : Type} (f : A → T → B → Res T) (lhs : List A) (rhs : List B) (st : T) :
    lhs.foldlM (fun st a => rhs.foldlM (f a) st) st =
      (lhs.flatMap fun a => rhs.map fun b => (a, b)).foldlM (fun st ab => f ab.1 st ab.2) st := by
  induction lhs generalizing st with
  | nil => rfl
  | cons a lhs ih =>
    rw [List.foldlM_cons, List.flatMap_cons, List.foldlM_append, List.foldlM_map]
    refine bind_congr fun st' => ?_
    exact ih st'

theorem pairs_length {A B : Type} (lhs : List A) (rhs : List B) :
    (lhs.flatMap fun a => rhs.map fun b => (a, b)).length = lhs.length * rhs.length := by
  induction lhs with
  | nil => simp
  | cons a lhs ih => rw [List.flatMap_cons, List.length_append, ih, List.length_map, List.length_cons]; ring

theorem pairs_getElem {A B : Type} (lhs : List A) (rhs : List B) (i j : Nat) (hj : j < rhs.length) :
    (lhs.flatMap fun a => rhs.map fun b => (a, b))[i * rhs.length + j]? = (lhs[i]?).bind fun a => (rhs[j]?).map fun b => (a, b) := by
  induction lhs generalizing i with
  | nil => simp
  | cons a lhs ih =>
    rw [List.flatMap_cons]
    cases i with
    | zero =>
      rw [List.getElem?_append_left (by simpa using hj)]
      simp
    | succ i =>
      rw [List.getElem?_append_right (by rw [List.length_map, Nat.succ_mul]; omega), List.length_map,
        show (i + 1) * rhs.length + j - rhs.length = i * rhs.length + j by rw [Nat.succ_mul]; omega, ih]
      simp

theorem buf_ok (f : S → S) (L : List (S × S)) (o : List S) (q : Nat) (h : q + L.length ≤ o.length) :
    ∃ o', L.foldlM (fun st ab => bufStep C f ab.1 st ab.2) (o, q) = .ok (o', q + L.length) ∧ o'.length = o.length ∧
      ∀ m, o'[m]? = if q ≤ m then (match L[m - q]? with
        | some ab => o[m]?.map (fun x => C.add x (f (C.mul ab.1 ab.2)))
        | none => o[m]?) else o[m]? := by
  induction L generalizing o q with
  | nil => exact ⟨o, rfl, rfl, fun m => by simp⟩
  | cons ab L ih =>
    rw [List.length_cons] at h
    have hs : bufStep C f ab.1 (o, q) ab.2 = .ok (o.modify q (fun x => C.add x (f (C.mul ab.1 ab.2))), q + 1) := by
      unfold bufStep
      rw [modifyUnchecked_ok _ (by show q < o.length; omega)]
      rfl
    obtain ⟨o', h1, h2, h3⟩ := ih (o.modify q (fun x => C.add x (f (C.mul ab.1 ab.2)))) (q + 1) (by simp; omega)
    refine ⟨o', ?_, by simpa using h2, fun m => ?_⟩
    · rw [List.foldlM_cons, hs, Res.bind_ok, h1, List.length_cons]
      congr 2
      omega
    · rw [h3]
      rcases Nat.lt_trichotomy m q with hm | rfl | hm
      · rw [if_neg (by omega), if_neg (by omega), List.getElem?_modify]
        simp [show ¬ q = m by omega]
      · rw [if_neg (by omega), if_pos (Nat.le_refl _), List.getElem?_modify]
        simp
      · rw [if_pos (by omega), if_pos (by omega), show m - q = (m - (q + 1)) + 1 by omega, List.getElem?_cons_succ, List.getElem?_modify]
        simp [show ¬ q = m by omega]

theorem buf_ub (f : S → S) (L : List (S × S)) (o : List S) (q : Nat) (hq : q ≤ o.length) (h : o.length < q + L.length) :
    L.foldlM (fun st ab => bufStep C f ab.1 st ab.2) (o, q) = .ub := by
  induction L generalizing o q with
  | nil => simp at h; omega
  | cons ab L ih =>
    rw [List.length_cons] at h
    rw [List.foldlM_cons]
    by_cases hlt : q < o.length
    · have hs : bufStep C f ab.1 (o, q) ab.2 = .ok (o.modify q (fun x => C.add x (f (C.mul ab.1 ab.2))), q + 1) := by
        unfold bufStep
        rw [modifyUnchecked_ok _ (show q < o.length from hlt)]
        rfl
      rw [hs, Res.bind_ok]
      exact ih _ _ (by simp; omega) (by simp; omega)
    · have hs : bufStep C f ab.1 (o, q) ab.2 = .ub := by
        unfold bufStep
        rw [modifyUnchecked_ub _ (show o.length ≤ q by omega)]
        rfl
      rw [hs]
      rfl

/-- The kernel adds the outer product of `lhs` and `rhs`, row by row. -/
theorem mulIntoBuffer_ok (f : S → S) (out lhs rhs : List S) (h : lhs.length * rhs.length ≤ out.length) :
    ∃ o', mulIntoBuffer C out lhs rhs f = .ok o' ∧ o'.length = out.length ∧
      (∀ i j a b, lhs[i]? = some a → rhs[j]? = some b →
        o'[i * rhs.length + j]? = (out[i * rhs.length + j]?).map (fun x => C.add x (f (C.mul a b)))) ∧
      ∀ m, lhs.length * rhs.length ≤ m → o'[m]? = out[m]? := by
  obtain ⟨o', h1, h2, h3⟩ := buf_ok C f (lhs.flatMap fun a => rhs.map fun b => (a, b)) out 0 (by rw [pairs_length]; omega)
  refine ⟨o', ?_, h2, ?_, ?_⟩
  · unfold mulIntoBuffer
    rw [foldlM_pairs (bufStep C f), h1]
    rfl
  · intro i j a b ha hb
    have hj : j < rhs.length := by
      by_contra hc
      rw [List.getElem?_eq_none (by omega)] at hb
      cases hb
    rw [h3, if_pos (Nat.zero_le _), Nat.sub_zero, pairs_getElem _ _ _ _ hj, ha, hb]
    rfl
  · intro m hm
    rw [h3, if_pos (Nat.zero_le _), Nat.sub_zero, List.getElem?_eq_none (by rw [pairs_length]; omega)]

theorem mulIntoBuffer_ub (f : S → S) (out lhs rhs : List S) (h : out.length < lhs.length * rhs.length) :
    mulIntoBuffer C out lhs rhs f = .ub := by
  unfold mulIntoBuffer
  rw [foldlM_pairs (bufStep C f), buf_ub C f _ out 0 (Nat.zero_le _) (by rw [pairs_length]; omega)]
  rfl

/-! ## Slices -/

theorem sliceUnchecked_ok (l : List S) (r : Nat × Nat) (h1 : r.1 ≤ r.2) (h2 : r.2 ≤ l.length) :
    ∃ o, sliceUnchecked l r = .ok o ∧ o.length = r.2 - r.1 ∧ ∀ m, m < r.2 - r.1 → o[m]? = l[r.1 + m]? := by
  refine ⟨(l.take r.2).drop r.1, by unfold sliceUnchecked; rw [if_pos ⟨h1, h2⟩], by simp; omega, ?_⟩
  intro m hm
  rw [List.getElem?_drop, List.getElem?_take, if_pos (by omega)]

theorem sliceUnchecked_ub (l : List S) (r : Nat × Nat) (h : l.length < r.2) : sliceUnchecked l r = .ub := by
  unfold sliceUnchecked
  rw [if_neg (by omega)]

theorem replaceRange_length (l : List S) (r : Nat × Nat) (o : List S) (h1 : r.1 ≤ r.2) (h2 : r.2 ≤ l.length) (ho : o.length = r.2 - r.1) :
    (replaceRange l r o).length = l.length := by
  unfold replaceRange
  simp
  omega

theorem replaceRange_getElem (l : List S) (r : Nat × Nat) (o : List S) (h1 : r.1 ≤ r.2) (h2 : r.2 ≤ l.length) (ho : o.length = r.2 - r.1)
    (m : Nat) : (replaceRange l r o)[m]? = if r.1 ≤ m ∧ m < r.2 then o[m - r.1]? else l[m]? := by
  unfold replaceRange
  by_cases ha : m < r.1
  · rw [List.append_assoc, List.getElem?_append_left (by simp; omega), List.getElem?_take, if_pos ha, if_neg (by omega)]
  · rw [List.append_assoc, List.getElem?_append_right (by simp; omega), List.length_take, Nat.min_eq_left (by omega)]
    by_cases hb : m < r.2
    · rw [List.getElem?_append_left (by omega), if_pos ⟨by omega, hb⟩]
    · rw [List.getElem?_append_right (by omega), ho, List.getElem?_drop, if_neg (by omega)]
      congr 1
      omega

/-! ## Degrees and words -/

theorem degreeRange_ok (h2 : 2 ≤ N) (d : Nat) (hp : N ^ (d + 1) < 2 ^ 64) :
    TensorBasis.degreeRange p N d = .ok (geomSum N d, geomSum N (d + 1)) := by
  have hd := TensorBasis.deg_lt64 h2 hp
  unfold TensorBasis.degreeRange
  rw [TensorBasis.startOfDegree_ok p N h2 d (TensorBasis.pow_lt64_mono h2 (by omega) hp)]
  simp only [Res.bind_ok]
  rw [addW_ok (by omega)]
  simp only [Res.bind_ok]
  rw [TensorBasis.startOfDegree_ok p N h2 (d + 1) hp]
  rfl

theorem geomSum_add (a b : Nat) : geomSum N (a + b) = geomSum N a * N ^ b + geomSum N b := by
  induction b with
  | zero => simp [geomSum]
  | succ b ih =>
    have e : geomSum N (a + (b + 1)) = geomSum N (a + b) + N ^ (a + b) := rfl
    have e2 : geomSum N (b + 1) = geomSum N b + N ^ b := rfl
    have e3 := geomSum_succ' N (a + b)
    have e4 := geomSum_succ' N b
    rw [show a + (b + 1) = a + b + 1 by omega, e3, ih, e4]
    ring

/-- A stored coefficient, by word. -/
def at? (N : Nat) (l : List S) (w : List Nat) : Option S := l[wordIndex N w]?

theorem at?_isSome {N : Nat} {l : List S} {w : List Nat} {d : Nat} (hw : ValidWord N w) (hd : w.length ≤ d) (hl : geomSum N (d + 1) ≤ l.length) :
    ∃ x, at? N l w = some x := by
  have := (wordIndex_bounds hw).2
  have h3 : geomSum N (w.length + 1) ≤ geomSum N (d + 1) := geomSum_mono (by omega)
  exact ⟨l[wordIndex N w]'(by omega), List.getElem?_eq_getElem (by omega)⟩

theorem at?_none {N : Nat} {l : List S} {w : List Nat} {d : Nat} (hw : ValidWord N w) (hd : d < w.length) (hl : l.length ≤ geomSum N (d + 1)) :
    at? N l w = none := by
  have := (wordIndex_bounds hw).1
  have h3 : geomSum N (d + 1) ≤ geomSum N w.length := geomSum_mono (by omega)
  exact List.getElem?_eq_none (by omega)

theorem validWord_take {N : Nat} {w : List Nat} (hw : ValidWord N w) (k : Nat) : ValidWord N (w.take k) :=
  fun l hl => hw l (List.mem_of_mem_take hl)

theorem validWord_drop {N : Nat} {w : List Nat} (hw : ValidWord N w) (k : Nat) : ValidWord N (w.drop k) :=
  fun l hl => hw l (List.mem_of_mem_drop hl)

/-- Effect on the entry at `w` of one pass of the kernel with left degree `k`. -/
def addTerm (f : S → S) (a b : List Nat → Option S) (w : List Nat) (x : S) (k : Nat) : S :=
  match a (w.take k), b (w.drop k) with
  | some y, some z => C.add x (f (C.mul y z))
  | _, _ => x

/-! ## One pass of the kernel -/

theorem mulAddStep_ok (h2 : 2 ≤ N) (f : S → S) (a b s : Dense S) (o k : Nat) (hp : N ^ (o + 1) < 2 ^ 64) (hk : k ≤ o)
    (ha : geomSum N (k + 1) ≤ a.data.length) (hb : geomSum N (o - k + 1) ≤ b.data.length) (hs : geomSum N (o + 1) ≤ s.data.length) :
    ∃ s', mulAddStep C p N a b f o s k = .ok s' ∧ s'.data.length = s.data.length ∧
      ∀ w, ValidWord N w → at? N s'.data w =
        if w.length = o then (at? N s.data w).map (fun x => addTerm C f (at? N a.data) (at? N b.data) w x k) else at? N s.data w := by
  have e1 : geomSum N (o + 1) = geomSum N o + N ^ o := rfl
  have e2 : geomSum N (k + 1) = geomSum N k + N ^ k := rfl
  have e3 : geomSum N (o - k + 1) = geomSum N (o - k) + N ^ (o - k) := rfl
  have hpow : N ^ k * N ^ (o - k) = N ^ o := by rw [← pow_add]; congr 1; omega
  obtain ⟨so, ho1, ho2, ho3⟩ := sliceUnchecked_ok s.data (geomSum N o, geomSum N (o + 1)) (by simp only; omega) hs
  obtain ⟨sa, ha1, ha2, ha3⟩ := sliceUnchecked_ok a.data (geomSum N k, geomSum N (k + 1)) (by simp only; omega) ha
  obtain ⟨sb, hb1, hb2, hb3⟩ := sliceUnchecked_ok b.data (geomSum N (o - k), geomSum N (o - k + 1)) (by simp only; omega) hb
  simp only at ho2 ho3 ha2 ha3 hb2 hb3
  have la : sa.length = N ^ k := by omega
  have lb : sb.length = N ^ (o - k) := by omega
  have lo : so.length = N ^ o := by omega
  obtain ⟨o', hm1, hm2, hm3, hm4⟩ := mulIntoBuffer_ok C f so sa sb (by rw [la, lb, lo, hpow])
  refine ⟨s.makeMut.writeSlice (replaceRange s.makeMut.data (geomSum N o, geomSum N (o + 1)) o'), ?_, ?_, ?_⟩
  · unfold mulAddStep
    rw [subW_ok hk]
    simp only [Res.bind_ok]
    rw [degreeRange_ok p N h2 o hp, degreeRange_ok p N h2 k (TensorBasis.pow_lt64_mono h2 (by omega) hp),
      degreeRange_ok p N h2 (o - k) (TensorBasis.pow_lt64_mono h2 (by omega) hp)]
    simp only [Res.bind_ok]
    rw [Dense.makeMut_data, ho1]
    simp only [Res.bind_ok]
    rw [ha1]
    simp only [Res.bind_ok]
    rw [hb1]
    simp only [Res.bind_ok]
    rw [hm1]
    rfl
  · rw [Dense.writeSlice_data, replaceRange_length _ _ _ (by simp only; omega) (by simpa using hs) (by simp only; omega)]
    simp
  · intro w hw
    have ⟨b1, b2⟩ := wordIndex_bounds hw
    rw [Dense.writeSlice_data]
    unfold at?
    rw [replaceRange_getElem _ _ _ (by simp only; omega) (by simpa using hs) (by simp only; omega), Dense.makeMut_data]
    simp only
    by_cases hlen : w.length = o
    · rw [hlen] at b1 b2
      rw [if_pos hlen, if_pos ⟨b1, b2⟩]
      have hsplit := wordIndex_append N (w.take k) (w.drop k)
      rw [List.take_append_drop] at hsplit
      have lt : (w.take k).length = k := by simp; omega
      have ld : (w.drop k).length = o - k := by simp; omega
      have ⟨c1, c2⟩ := wordIndex_bounds (validWord_take hw k)
      have ⟨d1, d2⟩ := wordIndex_bounds (validWord_drop hw k)
      rw [lt] at c1 c2
      rw [ld] at d1 d2 hsplit
      have hg := geomSum_add N k (o - k)
      rw [show k + (o - k) = o by omega] at hg
      have hidx : wordIndex N w - geomSum N o =
          (wordIndex N (w.take k) - geomSum N k) * sb.length + (wordIndex N (w.drop k) - geomSum N (o - k)) := by
        rw [lb, hsplit, hg, Nat.sub_mul]
        have := Nat.mul_le_mul_right (N ^ (o - k)) c1
        omega
      have hfa : sa[wordIndex N (w.take k) - geomSum N k]? = a.data[wordIndex N (w.take k)]? := by
        rw [ha3 _ (by omega)]
        congr 1
        omega
      have hfb : sb[wordIndex N (w.drop k) - geomSum N (o - k)]? = b.data[wordIndex N (w.drop k)]? := by
        rw [hb3 _ (by omega)]
        congr 1
        omega
      obtain ⟨x, hx⟩ := at?_isSome (validWord_take hw k) (Nat.le_of_eq lt) ha
      obtain ⟨y, hy⟩ := at?_isSome (validWord_drop hw k) (Nat.le_of_eq ld) hb
      unfold at? at hx hy
      rw [hx] at hfa
      rw [hy] at hfb
      rw [hidx, hm3 _ _ _ _ hfa hfb, ← hidx, ho3 _ (by omega), show geomSum N o + (wordIndex N w - geomSum N o) = wordIndex N w by omega]
      congr 1
      funext z
      unfold addTerm
      simp only [hx, hy]
    · rw [if_neg hlen, if_neg]
      rintro ⟨q1, q2⟩
      rcases Nat.lt_or_gt_of_ne hlen with h | h
      · have : geomSum N (w.length + 1) ≤ geomSum N o := geomSum_mono (by omega)
        omega
      · have : geomSum N (o + 1) ≤ geomSum N w.length := geomSum_mono (by omega)
        omega

theorem mulAddInner_ok (h2 : 2 ≤ N) (f : S → S) (a b s : Dense S) (o : Nat) (hp : N ^ (o + 1) < 2 ^ 64) (L : List Nat)
    (hL : ∀ k ∈ L, k ≤ o ∧ geomSum N (k + 1) ≤ a.data.length ∧ geomSum N (o - k + 1) ≤ b.data.length)
    (hs : geomSum N (o + 1) ≤ s.data.length) :
    ∃ s', L.foldlM (mulAddStep C p N a b f o) s = .ok s' ∧ s'.data.length = s.data.length ∧
      ∀ w, ValidWord N w → at? N s'.data w =
        if w.length = o then (at? N s.data w).map (fun x => L.foldl (addTerm C f (at? N a.data) (at? N b.data) w) x) else at? N s.data w := by
  induction L generalizing s with
  | nil => exact ⟨s, rfl, rfl, fun w _ => by simp⟩
  | cons k L ih =>
    obtain ⟨hk, ha, hb⟩ := hL k (by simp)
    obtain ⟨s1, h1, h3, h4⟩ := mulAddStep_ok C p N h2 f a b s o k hp hk ha hb hs
    obtain ⟨s', h5, h6, h7⟩ := ih s1 (fun k hk => hL k (by simp [hk])) (by omega)
    refine ⟨s', by rw [List.foldlM_cons, h1, Res.bind_ok, h5], by omega, fun w hw => ?_⟩
    rw [h7 w hw, h4 w hw]
    split_ifs
    · rw [Option.map_map]; rfl
    · rfl

theorem foldl_addTerm (f : S → S) (a b : List Nat → Option S) (w : List Nat) (L : List Nat) (x : S) :
    L.foldl (addTerm C f a b w) x =
      ((L.map fun k => (w.take k, w.drop k)).filterMap fun uv => match a uv.1, b uv.2 with
        | some y, some z => some (f (C.mul y z))
        | _, _ => none).foldl C.add x := by
  induction L generalizing x with
  | nil => rfl
  | cons k L ih =>
    rw [List.foldl_cons, ih, List.map_cons, List.filterMap_cons]
    unfold addTerm
    cases a (w.take k) <;> cases b (w.drop k) <;> rfl

theorem range'_reverse_filter (n lo hi : Nat) (hhi : hi < n) :
    (List.range n).reverse.filter (fun k => decide (lo ≤ k ∧ k ≤ hi)) = (List.range' lo (hi + 1 - lo)).reverse := by
  rw [List.filter_reverse]
  congr 1
  induction n generalizing hi with
  | zero => omega
  | succ n ih =>
    rw [List.range_succ, List.filter_append]
    by_cases h : hi < n
    · rw [ih hi h]
      simp
      omega
    · have : hi = n := by omega
      subst this
      cases hi with
      | zero =>
        by_cases hlo : lo = 0
        · subst hlo; rfl
        · rw [show 0 + 1 - lo = 0 by omega]
          simp
          omega
      | succ m =>
        have e : (List.range (m + 1)).filter (fun k => decide (lo ≤ k ∧ k ≤ m + 1)) =
            (List.range (m + 1)).filter (fun k => decide (lo ≤ k ∧ k ≤ m)) := by
          refine List.filter_congr fun k hk => ?_
          rw [List.mem_range] at hk
          rw [decide_eq_decide]
          omega
        rw [e, ih m (by omega)]
        by_cases hlo : lo ≤ m + 1
        · rw [show m + 1 + 1 - lo = (m + 1 - lo) + 1 by omega, List.range'_concat]
          simp [hlo]
        · rw [show m + 1 + 1 - lo = 0 by omega, show m + 1 - lo = 0 by omega]
          simp
          omega

theorem foldl_addTerm_filter (f : S → S) (a b : List Nat → Option S) (w : List Nat) (P : Nat → Bool) (L : List Nat) (x : S)
    (h : ∀ k ∈ L, P k = false → a (w.take k) = none ∨ b (w.drop k) = none) :
    (L.filter P).foldl (addTerm C f a b w) x = L.foldl (addTerm C f a b w) x := by
  induction L generalizing x with
  | nil => rfl
  | cons k L ih =>
    rw [List.filter_cons, List.foldl_cons]
    split_ifs with hP
    · rw [List.foldl_cons]
      exact ih _ (fun k hk => h k (by simp [hk]))
    · rw [ih _ (fun k hk => h k (by simp [hk]))]
      congr 1
      unfold addTerm
      rcases h k (by simp) (by simpa using hP) with h | h
      · rw [h]
      · rw [h]; cases a (w.take k) <;> rfl

/-- `d` is the degree of the vector: it is empty and `d = 0`, or its last entry belongs to a word of length `d`. -/
def DegIs (a : Dense S) (d : Nat) : Prop :=
  (a.data.length = 0 ∧ d = 0) ∨ (geomSum N d < a.data.length ∧ a.data.length ≤ geomSum N (d + 1))

theorem degree_ok (h2 : 2 ≤ N) (a : Dense S) (d : Nat) (hd : DegIs N a d) (hp : N ^ (d + 1) < 2 ^ 64) :
    Dense.degree (tensorBasis p N) a = .ok d := by
  unfold Dense.degree Dense.size
  rcases hd with ⟨h, rfl⟩ | ⟨h1, h3⟩
  · rw [if_pos h]
  · rw [if_neg (by omega)]
    exact TensorBasis.indexToDegree_ok p N h2 _ d hp (by omega) (by omega)

theorem degree_debug_overflow (h2 : 2 ≤ N) (hN : N < 2 ^ 32) (a : Dense S) (d : Nat) (hp : 2 ^ 64 ≤ N ^ (d + 1)) (hlo : geomSum N d < a.size)
    (h64 : a.size < 2 ^ 64) : Dense.degree (tensorBasis .debug N) a = .panic := by
  have hN2 : N ^ 2 < 2 ^ 64 := Nat.lt_of_lt_of_le (Nat.pow_lt_pow_left hN (by omega)) (by rw [← Nat.pow_mul])
  have hd : 2 ≤ d := by
    by_contra hc
    have := Nat.pow_le_pow_right (n := N) (by omega) (show d + 1 ≤ 2 by omega)
    omega
  have g2 : geomSum N 2 = 1 + N := by simp [geomSum]
  have hg := geomSum_mono (N := N) hd
  have h64' := TensorBasis.geomSum_lt64_deg (i := a.size - 1) h2 (by omega) (show geomSum N d ≤ a.size - 1 by omega)
  unfold Dense.degree
  rw [if_neg (by omega)]
  show TensorBasis.indexToDegree .debug N (a.size - 1) = _
  unfold TensorBasis.indexToDegree
  rw [if_neg (by omega), if_neg (by omega), TensorBasis.startOfDegree_ok _ N h2 2 hN2]
  simp only [Res.bind_ok]
  rw [if_pos (by omega)]
  by_cases h3 : N ^ 3 < 2 ^ 64
  · rw [TensorBasis.startOfDegree_ok _ N h2 3 h3]
    simp only [Res.bind_ok]
    have hd3 : 3 ≤ d := by
      by_contra hc
      have : d = 2 := by omega
      subst this
      exact absurd h3 (Nat.not_lt.2 hp)
    have hg3 := geomSum_mono (N := N) hd3
    rw [if_neg (by omega)]
    exact TensorBasis.indexToDegreeImpl_overflow N h2 _ d (by omega) hp (by omega) _ _ (by omega) (by omega)
  · rw [TensorBasis.startOfDegree_debug_overflow N _ (by omega)]
    rfl

theorem DegIs.length_le {N : Nat} {a : Dense S} {d : Nat} (hd : DegIs N a d) : a.data.length ≤ geomSum N (d + 1) := by
  rcases hd with ⟨h, rfl⟩ | ⟨_, h⟩ <;> omega

theorem pow_lt_deg {N a b : Nat} (h : geomSum N a < geomSum N b) : a < b := by
  by_contra hc
  have := geomSum_mono (N := N) (a := b) (b := a) (by omega)
  omega

/-- dense.rs:285-287: when `self` holds no word of length `m` it is extended with zeros to all words of length up to `m`; when it holds all of them
it is left alone. -/
theorem growTo_ok (h2 : 2 ≤ N) (s : Dense S) (ds m : Nat) (hds : DegIs N s ds) (hps : N ^ (ds + 1) < 2 ^ 64) (hp : N ^ (m + 1) < 2 ^ 64)
    (hs : (s.data.length ≤ geomSum N m ∧ 1 ≤ m) ∨ geomSum N (m + 1) ≤ s.data.length) :
    ∃ s', growTo C p N s m = .ok s' ∧ s'.data.length = max s.data.length (geomSum N (m + 1)) ∧
      (∀ w, ValidWord N w → at? N s'.data w = if w.length ≤ m then some ((at? N s.data w).getD C.zero) else at? N s.data w) := by
  have hm := TensorBasis.deg_lt64 h2 hp
  unfold growTo
  rw [degree_ok p N h2 s ds hds hps]
  simp only [Res.bind_ok]
  rcases hs with ⟨hs, h1⟩ | hs
  · have hlt : ds < m := by
      rcases hds with ⟨_, rfl⟩ | ⟨h, _⟩
      · omega
      · exact pow_lt_deg (Nat.lt_of_lt_of_le h hs)
    rw [if_pos hlt, addW_ok (by omega)]
    simp only [Res.bind_ok]
    rw [TensorBasis.startOfDegree_ok p N h2 _ hp]
    refine ⟨_, rfl, ?_, fun w hw => ?_⟩
    · rw [Dense.resize_data, vecResize_length]
      have := geomSum_mono (N := N) (a := m) (b := m + 1) (by omega)
      omega
    · rw [Dense.resize_data]
      unfold at?
      rw [vecResize_getElem?]
      have hiff : wordIndex N w < geomSum N (m + 1) ↔ w.length ≤ m := by
        have ⟨b1, b2⟩ := wordIndex_bounds hw
        constructor
        · intro h
          have := pow_lt_deg (Nat.lt_of_le_of_lt b1 h)
          omega
        · intro h
          have := geomSum_mono (N := N) (a := w.length + 1) (b := m + 1) (by omega)
          omega
      simp only [hiff]
      split_ifs with h
      · rfl
      · have : at? N s.data w = none := at?_none hw (d := m) (by omega) (by
          have := geomSum_mono (N := N) (a := m) (b := m + 1) (by omega)
          omega)
        exact this.symm
  · have hle : ¬ ds < m := by
      intro hlt
      have h3 := hds.length_le
      have := geomSum_strict (N := N) (a := ds + 1) (b := m + 1) (by omega) (by omega)
      omega
    rw [if_neg hle]
    refine ⟨s, rfl, by omega, fun w hw => ?_⟩
    split_ifs with h
    · obtain ⟨x, hx⟩ := at?_isSome hw h hs
      rw [hx]
      rfl
    · rfl

theorem mulAddDegree_eq (f : S → S) (a b s : Dense S) (da db o : Nat) :
    mulAddDegree C p N a b f da db s o =
      (List.range' (o - db) (min o da + 1 - (o - db))).reverse.foldlM (mulAddStep C p N a b f o) s := by
  unfold mulAddDegree
  split_ifs with h
  · rw [subW_ok (by omega)]
    rfl
  · rw [show o - db = 0 by omega]
    rfl

theorem mulAddDegree_ok (h2 : 2 ≤ N) (f : S → S) (a b s : Dense S) (da db o : Nat) (hda : a.data.length ≤ geomSum N (da + 1))
    (hdb : b.data.length ≤ geomSum N (db + 1)) (hp : N ^ (o + 1) < 2 ^ 64) (ho : o ≤ da + db)
    (ha : geomSum N (min o da + 1) ≤ a.data.length) (hb : geomSum N (min o db + 1) ≤ b.data.length)
    (hs : geomSum N (o + 1) ≤ s.data.length) :
    ∃ s', mulAddDegree C p N a b f da db s o = .ok s' ∧ s'.data.length = s.data.length ∧
      ∀ w, ValidWord N w → at? N s'.data w =
        if w.length = o then (at? N s.data w).map (fun x =>
          (splitProducts (fun y z => f (C.mul y z)) (at? N a.data) (at? N b.data) w).foldl C.add x) else at? N s.data w := by
  obtain ⟨s', h1, h3, h4⟩ := mulAddInner_ok C p N h2 f a b s o hp (List.range' (o - db) (min o da + 1 - (o - db))).reverse (by
    intro k hk
    rw [List.mem_reverse, List.mem_range'_1] at hk
    refine ⟨by omega, ?_, ?_⟩
    · have := geomSum_mono (N := N) (a := k + 1) (b := min o da + 1) (by omega)
      omega
    · have := geomSum_mono (N := N) (a := o - k + 1) (b := min o db + 1) (by omega)
      omega) hs
  refine ⟨s', ?_, h3, fun w hw => ?_⟩
  · rw [mulAddDegree_eq]
    exact h1
  · rw [h4 w hw]
    split_ifs with hlen
    · congr 1
      funext x
      rw [← range'_reverse_filter (w.length + 1) (o - db) (min o da) (by omega), foldl_addTerm_filter, foldl_addTerm]
      · rfl
      · intro k hk hP
        rw [List.mem_reverse, List.mem_range] at hk
        simp only [decide_eq_false_iff_not, not_and_or] at hP
        rcases hP with hP | hP
        · right
          exact at?_none (validWord_drop hw k) (d := db) (by simp; omega) hdb
        · left
          exact at?_none (validWord_take hw k) (d := da) (by simp; omega) hda
    · rfl

theorem mulAddOuter_ok (h2 : 2 ≤ N) (f : S → S) (a b s : Dense S) (da db m : Nat) (hda : a.data.length ≤ geomSum N (da + 1))
    (hdb : b.data.length ≤ geomSum N (db + 1)) (hp : N ^ (m + 1) < 2 ^ 64) (hm : m ≤ da + db)
    (ha : geomSum N (min m da + 1) ≤ a.data.length) (hb : geomSum N (min m db + 1) ≤ b.data.length)
    (hs : geomSum N (m + 1) ≤ s.data.length) (L : List Nat) (hL : ∀ o ∈ L, o ≤ m) (hnd : L.Nodup) :
    ∃ s', L.foldlM (mulAddDegree C p N a b f da db) s = .ok s' ∧ s'.data.length = s.data.length ∧
      ∀ w, ValidWord N w → at? N s'.data w =
        if w.length ∈ L then (at? N s.data w).map (fun x =>
          (splitProducts (fun y z => f (C.mul y z)) (at? N a.data) (at? N b.data) w).foldl C.add x) else at? N s.data w := by
  induction L generalizing s with
  | nil => exact ⟨s, rfl, rfl, fun w _ => by simp⟩
  | cons o L ih =>
    rw [List.nodup_cons] at hnd
    have ho := hL o (by simp)
    obtain ⟨s1, h1, h3, h4⟩ := mulAddDegree_ok C p N h2 f a b s da db o hda hdb (TensorBasis.pow_lt64_mono h2 (by omega) hp) (by omega)
      (by have := geomSum_mono (N := N) (a := min o da + 1) (b := min m da + 1) (by omega); omega)
      (by have := geomSum_mono (N := N) (a := min o db + 1) (b := min m db + 1) (by omega); omega)
      (by have := geomSum_mono (N := N) (a := o + 1) (b := m + 1) (by omega); omega)
    obtain ⟨s', h5, h6, h7⟩ := ih s1 (by omega) (fun o ho => hL o (by simp [ho])) hnd.2
    refine ⟨s', by rw [List.foldlM_cons, h1, Res.bind_ok, h5], by omega, fun w hw => ?_⟩
    rw [h7 w hw, h4 w hw]
    by_cases hwo : w.length = o
    · rw [if_neg (by rw [hwo]; exact hnd.1), if_pos hwo, if_pos (by simp [hwo])]
    · rw [if_neg hwo]
      simp [hwo]

theorem maxDeg_ok (D da db : Nat) (h : da + db < 2 ^ 32) : maxDeg p (some D) da db = .ok (min D (da + db)) := by
  unfold maxDeg
  rw [addW_ok h]
  rfl

/-- `multiply_and_add_into_impl`, exactly. -/
theorem mulAddInto_ok (h2 : 2 ≤ N) (f : S → S) (s a b : Dense S) (ds da db D : Nat) (hds : DegIs N s ds) (hda : DegIs N a da) (hdb : DegIs N b db)
    (hps : N ^ (ds + 1) < 2 ^ 64) (hpa : N ^ (da + 1) < 2 ^ 64) (hpb : N ^ (db + 1) < 2 ^ 64) (hp : N ^ (min D (da + db) + 1) < 2 ^ 64)
    (ha : geomSum N (min (min D (da + db)) da + 1) ≤ a.data.length) (hb : geomSum N (min (min D (da + db)) db + 1) ≤ b.data.length)
    (hs : (s.data.length ≤ geomSum N (min D (da + db)) ∧ 1 ≤ min D (da + db)) ∨ geomSum N (min D (da + db) + 1) ≤ s.data.length) :
    ∃ r, mulAddInto C p N s a b f (some D) = .ok r ∧ r.data.length = max s.data.length (geomSum N (min D (da + db) + 1)) ∧
      ∀ w, ValidWord N w → at? N r.data w =
        if w.length ≤ min D (da + db) then
          some ((splitProducts (fun y z => f (C.mul y z)) (at? N a.data) (at? N b.data) w).foldl C.add ((at? N s.data w).getD C.zero))
        else at? N s.data w := by
  have b1 := TensorBasis.deg_lt64 h2 hpa
  have b2 := TensorBasis.deg_lt64 h2 hpb
  generalize hM : min D (da + db) = M at *
  obtain ⟨s1, g1, g2, g3⟩ := growTo_ok C p N h2 s ds M hds hps hp hs
  obtain ⟨r, r1, r2, r3⟩ := mulAddOuter_ok C p N h2 f a b s1 da db M hda.length_le hdb.length_le hp (by omega) ha hb (by omega)
    (List.range (M + 1)).reverse (by intro o ho; rw [List.mem_reverse, List.mem_range] at ho; omega)
    ((List.reverse_perm _).nodup_iff.2 List.nodup_range)
  refine ⟨r, ?_, by omega, fun w hw => ?_⟩
  · unfold mulAddInto
    rw [degree_ok p N h2 a da hda hpa, degree_ok p N h2 b db hdb hpb]
    simp only [Res.bind_ok]
    rw [maxDeg_ok p D da db (by omega), hM]
    simp only [Res.bind_ok]
    rw [g1]
    exact r1
  · rw [r3 w hw, g3 w hw]
    simp only [List.mem_reverse, List.mem_range, Nat.lt_succ_iff]
    split_ifs <;> rfl

/-! ## When the product is undefined behaviour -/

theorem mulAddStep_ub_out (h2 : 2 ≤ N) (f : S → S) (a b s : Dense S) (o k : Nat) (hp : N ^ (o + 1) < 2 ^ 64) (hk : k ≤ o)
    (hs : s.data.length < geomSum N (o + 1)) : mulAddStep C p N a b f o s k = .ub := by
  unfold mulAddStep
  rw [subW_ok hk]
  simp only [Res.bind_ok]
  rw [degreeRange_ok p N h2 o hp]
  simp only [Res.bind_ok]
  rw [Dense.makeMut_data, sliceUnchecked_ub _ _ hs]
  rfl

theorem mulAddStep_ub_lhs (h2 : 2 ≤ N) (f : S → S) (a b s : Dense S) (o k : Nat) (hp : N ^ (o + 1) < 2 ^ 64) (hk : k ≤ o)
    (hs : geomSum N (o + 1) ≤ s.data.length) (ha : a.data.length < geomSum N (k + 1)) : mulAddStep C p N a b f o s k = .ub := by
  obtain ⟨so, ho1, _, _⟩ := sliceUnchecked_ok s.data (geomSum N o, geomSum N (o + 1)) (geomSum_mono (by omega)) hs
  unfold mulAddStep
  rw [subW_ok hk]
  simp only [Res.bind_ok]
  rw [degreeRange_ok p N h2 o hp, degreeRange_ok p N h2 k (TensorBasis.pow_lt64_mono h2 (by omega) hp)]
  simp only [Res.bind_ok]
  rw [Dense.makeMut_data, ho1]
  simp only [Res.bind_ok]
  rw [sliceUnchecked_ub _ _ ha]
  rfl

theorem mulAddStep_ub_rhs (h2 : 2 ≤ N) (f : S → S) (a b s : Dense S) (o k : Nat) (hp : N ^ (o + 1) < 2 ^ 64) (hk : k ≤ o)
    (hs : geomSum N (o + 1) ≤ s.data.length) (ha : geomSum N (k + 1) ≤ a.data.length) (hb : b.data.length < geomSum N (o - k + 1)) :
    mulAddStep C p N a b f o s k = .ub := by
  obtain ⟨so, ho1, _, _⟩ := sliceUnchecked_ok s.data (geomSum N o, geomSum N (o + 1)) (geomSum_mono (by omega)) hs
  obtain ⟨sa, ha1, _, _⟩ := sliceUnchecked_ok a.data (geomSum N k, geomSum N (k + 1)) (geomSum_mono (by omega)) ha
  unfold mulAddStep
  rw [subW_ok hk]
  simp only [Res.bind_ok]
  rw [degreeRange_ok p N h2 o hp, degreeRange_ok p N h2 k (TensorBasis.pow_lt64_mono h2 (by omega) hp),
    degreeRange_ok p N h2 (o - k) (TensorBasis.pow_lt64_mono h2 (by omega) hp)]
  simp only [Res.bind_ok]
  rw [Dense.makeMut_data, ho1]
  simp only [Res.bind_ok]
  rw [ha1]
  simp only [Res.bind_ok]
  rw [sliceUnchecked_ub _ _ hb]
  rfl

theorem growTo_length (h2 : 2 ≤ N) (s : Dense S) (ds m : Nat) (hds : DegIs N s ds) (hps : N ^ (ds + 1) < 2 ^ 64)
    (hs : ¬ ((s.data.length ≤ geomSum N m ∧ 1 ≤ m) ∨ geomSum N (m + 1) ≤ s.data.length)) :
    growTo C p N s m = .ok s ∧ s.data.length < geomSum N (m + 1) := by
  rw [not_or] at hs
  refine ⟨?_, by omega⟩
  unfold growTo
  rw [degree_ok p N h2 s ds hds hps]
  simp only [Res.bind_ok]
  rw [if_neg]
  · rfl
  · intro hlt
    have : s.data.length ≤ geomSum N m := by
      have h3 := hds.length_le
      have := geomSum_mono (N := N) (a := ds + 1) (b := m) (by omega)
      omega
    exact hs.1 ⟨this, by omega⟩

/-- Outside the conditions of `mulAddInto_ok` the product reads or writes out of bounds. -/
theorem mulAddInto_ub (h2 : 2 ≤ N) (f : S → S) (s a b : Dense S) (ds da db D : Nat) (hds : DegIs N s ds) (hda : DegIs N a da) (hdb : DegIs N b db)
    (hps : N ^ (ds + 1) < 2 ^ 64) (hpa : N ^ (da + 1) < 2 ^ 64) (hpb : N ^ (db + 1) < 2 ^ 64) (hp : N ^ (min D (da + db) + 1) < 2 ^ 64)
    (h : ¬ (geomSum N (min (min D (da + db)) da + 1) ≤ a.data.length ∧ geomSum N (min (min D (da + db)) db + 1) ≤ b.data.length ∧
      ((s.data.length ≤ geomSum N (min D (da + db)) ∧ 1 ≤ min D (da + db)) ∨ geomSum N (min D (da + db) + 1) ≤ s.data.length))) :
    mulAddInto C p N s a b f (some D) = .ub := by
  have b1 := TensorBasis.deg_lt64 h2 hpa
  have b2 := TensorBasis.deg_lt64 h2 hpb
  generalize hM : min D (da + db) = M at *
  have hhead : List.range' (M - db) (min M da + 1 - (M - db)) = List.range' (M - db) (min M da - (M - db)) ++ [min M da] := by
    rw [show min M da + 1 - (M - db) = (min M da - (M - db)) + 1 by omega, List.range'_concat]
    congr 2
    omega
  have hlast : List.range' (M - db) (min M da + 1 - (M - db)) = (M - db) :: List.range' (M - db + 1) (min M da - (M - db)) := by
    rw [show min M da + 1 - (M - db) = (min M da - (M - db)) + 1 by omega, List.range'_succ]
  have key : ∀ s1, growTo C p N s M = .ok s1 → mulAddDegree C p N a b f da db s1 M = .ub → mulAddInto C p N s a b f (some D) = .ub := by
    intro s1 hg hd
    unfold mulAddInto
    rw [degree_ok p N h2 a da hda hpa, degree_ok p N h2 b db hdb hpb]
    simp only [Res.bind_ok]
    rw [maxDeg_ok p D da db (by omega), hM]
    simp only [Res.bind_ok]
    rw [hg]
    simp only [Res.bind_ok]
    rw [List.range_succ, List.reverse_append, List.reverse_singleton, List.singleton_append, List.foldlM_cons, hd]
    rfl
  have deg : ∀ s1, (List.range' (M - db) (min M da + 1 - (M - db))).reverse.foldlM (mulAddStep C p N a b f M) s1 = .ub →
      mulAddDegree C p N a b f da db s1 M = .ub := by
    intro s1 h
    rw [mulAddDegree_eq]
    exact h
  by_cases hs : (s.data.length ≤ geomSum N M ∧ 1 ≤ M) ∨ geomSum N (M + 1) ≤ s.data.length
  · obtain ⟨s1, g1, g2, _⟩ := growTo_ok C p N h2 s ds M hds hps hp hs
    refine key s1 g1 (deg s1 ?_)
    by_cases ha : geomSum N (min M da + 1) ≤ a.data.length
    · have hb : b.data.length < geomSum N (min M db + 1) := by
        by_contra hc
        exact h ⟨ha, by omega, hs⟩
      have hdbM : db ≤ M := by
        by_contra hc
        rcases hdb with ⟨_, rfl⟩ | ⟨h5, _⟩
        · omega
        · have := geomSum_mono (N := N) (a := min M db + 1) (b := db) (by omega)
          omega
      rw [hlast, List.reverse_cons, List.foldlM_append]
      obtain ⟨s2, i1, i2, _⟩ := mulAddInner_ok C p N h2 f a b s1 M hp (List.range' (M - db + 1) (min M da - (M - db))).reverse (by
        intro k hk
        rw [List.mem_reverse, List.mem_range'_1] at hk
        refine ⟨by omega, ?_, ?_⟩
        · have := geomSum_mono (N := N) (a := k + 1) (b := min M da + 1) (by omega)
          omega
        · rcases hdb with ⟨_, rfl⟩ | ⟨h5, _⟩
          · omega
          · have := geomSum_mono (N := N) (a := M - k + 1) (b := db) (by omega)
            omega) (by omega)
      rw [i1, Res.bind_ok, List.foldlM_cons, mulAddStep_ub_rhs C p N h2 f a b s2 M (M - db) hp (by omega) (by omega)
        (by have := geomSum_mono (N := N) (a := M - db + 1) (b := min M da + 1) (by omega); omega)
        (by rw [show M - (M - db) = min M db by omega]; exact hb)]
      rfl
    · rw [hhead, List.reverse_append, List.reverse_singleton, List.singleton_append, List.foldlM_cons,
        mulAddStep_ub_lhs C p N h2 f a b s1 M _ hp (by omega) (by omega) (by omega)]
      rfl
  · obtain ⟨g1, g2⟩ := growTo_length C p N h2 s ds M hds hps hs
    refine key s g1 (deg s ?_)
    rw [hhead, List.reverse_append, List.reverse_singleton, List.singleton_append, List.foldlM_cons,
      mulAddStep_ub_out C p N h2 f a b s M _ hp (by omega) g2]
    rfl

end DenseAlg
end RA
