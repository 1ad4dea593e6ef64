import Verif.Props.Fallible
import Verif.Props.Unwind

/-!
# Coefficient arithmetic that panics: the product (C100)
-/

namespace RA
namespace Spec

/-- Update one coefficient after the other: for each pair of words, with its two factors, the coefficient of the word they form together.  Stop at the first
update that does not return; what it left stays. -/
def runUpdates {S T : Type} (upd : T → S → S → S → Res Unit × (S × T)) :
    (List Nat → S) → T → List ((List Nat × List Nat) × (S × S)) → Res Unit × ((List Nat → S) × T)
  | f, t, [] => (.ok (), f, t)
  | f, t, (uv, ab) :: rest =>
    match upd t (f (uv.1 ++ uv.2)) ab.1 ab.2 with
    | (.ok (), y, t) => runUpdates upd (Function.update f (uv.1 ++ uv.2) y) t rest
    | (.panic, y, t) => (.panic, Function.update f (uv.1 ++ uv.2) y, t)
    | (.ub, y, t) => (.ub, Function.update f (uv.1 ++ uv.2) y, t)
    | (.diverge, y, t) => (.diverge, Function.update f (uv.1 ++ uv.2) y, t)

end Spec

namespace Fallible
open Spec DenseAlg Unw
variable {S R T : Type}

/-- One update of the element with the given index. -/
def updStep (upd : Update S T) (_ : Unit) (x : (S × S) × Nat) : Unw (Dense S × T) Unit := fun st =>
  match st.1.data[x.2]? with
  | none => (.ub, st)
  | some o => ((upd st.2 o x.1.1 x.1.2).1, (st.1.writeSlice (st.1.data.set x.2 (upd st.2 o x.1.1 x.1.2).2.1), (upd st.2 o x.1.1 x.1.2).2.2))

theorem bufF_eq (upd : Update S T) (lo len : Nat) (L : List (S × S)) (q : Nat) (st : Dense S × T) (h : q + L.length ≤ len) :
    L.foldlM (fun ptr ab => bufStepF upd lo len ab.1 ptr ab.2) q st =
      ((L.zipIdx (lo + q)).foldlM (updStep upd) () >>= fun _ => pure (q + L.length)) st := by
  induction L generalizing q st with
  | nil => rfl
  | cons ab L ih =>
    rw [List.length_cons] at h
    rw [List.foldlM_cons, List.zipIdx_cons, List.foldlM_cons, bind_apply, bind_assoc, bind_apply]
    unfold bufStepF updStep
    simp only
    rw [if_pos (by omega)]
    cases st.1.data[lo + q]? with
    | none => rfl
    | some o =>
      simp only
      rcases upd st.2 o ab.1 ab.2 with ⟨⟨⟩ | _ | _ | _, y, t⟩
      · simp only
        rw [show q + (ab :: L).length = q + 1 + L.length by simp; omega, Nat.add_assoc lo q 1]
        exact ih (q + 1) _ (by omega)
      all_goals rfl

theorem mulIntoBufferF_eq (upd : Update S T) (lo len : Nat) (l r : List S) (st : Dense S × T) (h : l.length * r.length ≤ len) :
    mulIntoBufferF upd lo len l r st = ((l.flatMap fun a => r.map fun b => (a, b)).zipIdx lo).foldlM (updStep upd) () st := by
  unfold mulIntoBufferF
  rw [foldlM_pairsU (bufStepF upd lo len), bind_apply, bufF_eq upd lo len _ 0 st (by rw [pairs_length]; omega), bind_apply, Nat.add_zero]
  rcases List.foldlM (updStep upd) () ((l.flatMap fun a => r.map fun b => (a, b)).zipIdx lo) st with ⟨_ | _ | _ | _, s⟩ <;> rfl

/-- The factors and the index for a pair of words. -/
def factorsOf (z : S) (N : Nat) (a b : Dense S) (uv : List Nat × List Nat) : (S × S) × Nat :=
  (((at? N a.data uv.1).getD z, (at? N b.data uv.2).getD z), wordIndex N (uv.1 ++ uv.2))

theorem mulAddStepF_eq (p : Profile) (N : Nat) (z : S) (h2 : 2 ≤ N) (upd : Update S T) (a b d : Dense S) (o k : Nat) (t : T) (hp : N ^ (o + 1) < 2 ^ 64)
    (hk : k ≤ o) (ha : geomSum N (k + 1) ≤ a.data.length) (hb : geomSum N (o - k + 1) ≤ b.data.length) (hs : geomSum N (o + 1) ≤ d.data.length) :
    mulAddStepF p N upd a b o () k (d, t) = ((wordPairs N k (o - k)).map (factorsOf z N a b)).foldlM (updStep upd) () (asMut d, t) := by
  have e1 : geomSum N (o + 1) = geomSum N o + N ^ o := rfl
  have sl : ∀ (l : List S) (z : S) (i : Nat), geomSum N (i + 1) ≤ l.length →
      sliceUnchecked l (geomSum N i, geomSum N (i + 1)) = .ok ((wordsOfLength N i).map fun u => (at? N l u).getD z) := by
    intro l z i hi
    unfold sliceUnchecked
    rw [if_pos ⟨geomSum_mono (by omega), hi⟩]
    simp only
    rw [slice_words N l z i hi]
  have len : ∀ i, (wordsOfLength N i).length = N ^ i := fun i => by simpa using congrArg List.length (wordsOfLength_index N i)
  have hpow : N ^ k * N ^ (o - k) = N ^ o := by rw [← pow_add]; congr 1; omega
  unfold mulAddStepF
  rw [subW_ok hk, lift_ok_bind, asMutU_bind, degreeRange_ok p N h2 o hp, degreeRange_ok p N h2 k (TensorBasis.pow_lt64_mono h2 (by omega) hp),
    degreeRange_ok p N h2 (o - k) (TensorBasis.pow_lt64_mono h2 (by omega) hp)]
  simp only [lift_ok_bind]
  rw [sl _ z _ hs, sl _ z _ ha, sl _ z _ hb]
  simp only [lift_ok_bind]
  rw [mulIntoBufferF_eq _ _ _ _ _ _ (by simp [len, hpow, e1])]
  have hpairs : (((wordsOfLength N k).map fun u => (at? N a.data u).getD z).flatMap fun x =>
      ((wordsOfLength N (o - k)).map fun v => (at? N b.data v).getD z).map fun y => (x, y)) =
      (wordPairs N k (o - k)).map fun uv => ((at? N a.data uv.1).getD z, (at? N b.data uv.2).getD z) := by
    rw [wordPairs, List.map_flatMap, List.flatMap_map]
    refine List.flatMap_congr fun u _ => ?_
    rw [List.map_map, List.map_map]
    rfl
  rw [hpairs, zipIdx_at _ _ (fun uv => wordIndex N (uv.1 ++ uv.2)) (geomSum N o) (by
    rw [wordPairs_index, wordPairs_length, show k + (o - k) = o by omega])]
  rfl

/-- The updates leave a vector of the same size, whose slice has been made mutable. -/
theorem updStep_state (upd : Update S T) (L : List ((S × S) × Nat)) (d : Dense S) (l : List S) (t : T) :
    ∃ l', l'.length = l.length ∧ (L.foldlM (updStep upd) () (d.makeMut.writeSlice l, t)).2.1 = d.makeMut.writeSlice l' := by
  induction L generalizing l t with
  | nil => exact ⟨l, rfl, rfl⟩
  | cons x L ih =>
    rw [List.foldlM_cons, bind_apply]
    unfold updStep
    simp only [Dense.writeSlice_data]
    cases l[x.2]? with
    | none => exact ⟨l, rfl, rfl⟩
    | some o =>
      simp only
      rcases upd t o x.1.1 x.1.2 with ⟨⟨⟩ | _ | _ | _, y, t'⟩
      · simp only
        rw [write_again]
        obtain ⟨l', h1, h2⟩ := ih (l.set x.2 y) t'
        exact ⟨l', by simpa using h1, h2⟩
      all_goals
        simp only
        rw [write_again]
        exact ⟨_, by simp, rfl⟩

theorem foldlM_updates {A : Type} (upd : Update S T) (step : Unit → A → Unw (Dense S × T) Unit) (c : A → List ((S × S) × Nat)) (n : Nat) (L : List A)
    (h : ∀ i ∈ L, ∀ d t, d.data.length = n → step () i (d, t) = (c i).foldlM (updStep upd) () (asMut d, t))
    (hne : L ≠ []) (d : Dense S) (t : T) (hd : d.data.length = n) :
    L.foldlM step () (d, t) = (L.flatMap c).foldlM (updStep upd) () (asMut d, t) := by
  induction L generalizing d t with
  | nil => exact absurd rfl hne
  | cons i L ih =>
    rw [List.foldlM_cons, bind_apply, h i (by simp) d t hd, List.flatMap_cons, List.foldlM_append, bind_apply]
    unfold asMut
    obtain ⟨l', h1, h2⟩ := updStep_state upd (c i) d d.data t
    rcases hq : List.foldlM (updStep upd) () (c i) (d.makeMut.writeSlice d.data, t) with ⟨_ | _ | _ | _, d', t'⟩
    · rw [hq] at h2
      simp only at h2
      subst h2
      simp only
      cases L with
      | nil => rfl
      | cons j L => rw [ih (fun i hi => h i (by simp [hi])) (by simp) _ _ (by rw [Dense.writeSlice_data]; omega), asMut_again]
    all_goals rfl

/-- A structure of coefficients with the given zero, for the lemmas on `growTo`, which uses nothing else. -/
def zeroOnly (z : S) : Coeff S Unit :=
  { zero := z, one := z, mone := z, uminus := fun _ => z, inv := fun _ => z, add := fun _ _ => z, sub := fun _ _ => z, mul := fun _ _ => z, div := fun _ _ => z
    fromDegree := fun _ => z, ratFromDegree := fun _ => (), eq := fun _ _ => true }

theorem growToF_eq (F : FCoeff S R) (p : Profile) (N m : Nat) (st : Dense S × T) :
    growToF F p N m st = growToU (zeroOnly F.zero) p N m st := by
  unfold growToF growToU growTo
  rw [get_bind, get_bind]
  cases Dense.degree (tensorBasis p N) st.1 with
  | ok sd =>
    simp only [lift_ok_bind, Res.bind_ok]
    by_cases h : sd < m
    · rw [if_pos h, if_pos h]
      cases addW p 32 m 1 with
      | ok d =>
        simp only [lift_ok_bind, Res.bind_ok]
        cases TensorBasis.startOfDegree p N d <;> rfl
      | _ => rfl
    · rw [if_neg h, if_neg h]
      rfl
  | _ => rfl

theorem mulAddIntoF_eq (F : FCoeff S R) (p : Profile) (N : Nat) (h2 : 2 ≤ N) (s a b : Dense S) (ds da db D : Nat) (hds : DegIs N s ds) (hda : DegIs N a da)
    (hdb : DegIs N b db) (hps : N ^ (ds + 1) < 2 ^ 64) (hpa : N ^ (da + 1) < 2 ^ 64) (hpb : N ^ (db + 1) < 2 ^ 64)
    (hp : N ^ (min D (da + db) + 1) < 2 ^ 64)
    (ha : geomSum N (min (min D (da + db)) da + 1) ≤ a.data.length) (hb : geomSum N (min (min D (da + db)) db + 1) ≤ b.data.length)
    (hs : (s.data.length ≤ geomSum N (min D (da + db)) ∧ 1 ≤ min D (da + db)) ∨ geomSum N (min D (da + db) + 1) ≤ s.data.length) :
    ∃ s1 : Dense S, s1.data.length = max s.data.length (geomSum N (min D (da + db) + 1)) ∧
      (∀ w, ValidWord N w → at? N s1.data w = if w.length ≤ min D (da + db) then some ((at? N s.data w).getD F.zero) else at? N s.data w) ∧
      ∀ (T : Type) (func : ClosureU S T) (t : T), mulAddIntoF F p N func a b (some D) (s, t) =
        ((callOrder N (min D (da + db)) da db).map (factorsOf F.zero N a b)).foldlM (updStep (addProduct F func)) () (s1.makeMut.writeSlice s1.data, t) := by
  have b1 := TensorBasis.deg_lt64 h2 hpa
  have b2 := TensorBasis.deg_lt64 h2 hpb
  generalize hM : min D (da + db) = M at *
  obtain ⟨s1, g1, g2, g3⟩ := growTo_ok (zeroOnly F.zero) p N h2 s ds M hds hps hp hs
  refine ⟨s1, g2, g3, fun T func t => ?_⟩
  unfold mulAddIntoF
  rw [degree_ok p N h2 a da hda hpa, degree_ok p N h2 b db hdb hpb]
  simp only [lift_ok_bind]
  rw [maxDeg_ok p D da db (by omega), hM, lift_ok_bind, bind_apply]
  have hg : growToF F p N M (s, t) = (.ok (), (s1, t)) := by
    rw [growToF_eq]
    unfold growToU
    rw [get_bind]
    simp only [g1, lift_ok_bind]
    rfl
  rw [hg]
  simp only
  rw [callOrder, List.map_flatMap]
  refine foldlM_updates (addProduct F func) _ _ s1.data.length _ ?_ (by simp) _ _ rfl
  intro o ho d t' hd
  rw [List.mem_reverse, List.mem_range] at ho
  have e : mulAddDegreeF p N (addProduct F func) a b da db () o (d, t') =
      (List.range' (o - db) (min o da + 1 - (o - db))).reverse.foldlM (mulAddStepF p N (addProduct F func) a b o) () (d, t') := by
    unfold mulAddDegreeF
    split_ifs with h
    · rw [subW_ok (by omega)]
      rfl
    · rw [show o - db = 0 by omega]
      rfl
  rw [e, List.map_flatMap]
  refine foldlM_updates (addProduct F func) _ _ s1.data.length _ ?_ ?_ _ _ hd
  · intro k hk d t' hd
    rw [List.mem_reverse, List.mem_range'_1] at hk
    have g4 := geomSum_mono (N := N) (a := k + 1) (b := min M da + 1) (by omega)
    have g5 := geomSum_mono (N := N) (a := o - k + 1) (b := min M db + 1) (by omega)
    have g6 := geomSum_mono (N := N) (a := o + 1) (b := M + 1) (by omega)
    exact mulAddStepF_eq p N F.zero h2 _ a b d o k t' (TensorBasis.pow_lt64_mono h2 (by omega) hp) (by omega) (by omega) (by omega) (by omega)
  · intro h
    have := congrArg List.length h
    simp at this
    omega

/-- The updates by index are the updates by word. -/
theorem updates_words (upd : Update S T) (N : Nat) (fac : List Nat × List Nat → S × S) (P : List (List Nat × List Nat))
    (hP : ∀ uv ∈ P, ValidWord N (uv.1 ++ uv.2)) (s1 : Dense S) (l : List S) (t : T) (f : List Nat → S)
    (hf : ∀ uv ∈ P, at? N l (uv.1 ++ uv.2) = some (f (uv.1 ++ uv.2))) (q : Res Unit × ((List Nat → S) × T))
    (hq : q = runUpdates upd f t (P.map fun uv => (uv, fac uv))) :
    ∃ l', l'.length = l.length ∧ (P.map fun uv => (fac uv, wordIndex N (uv.1 ++ uv.2))).foldlM (updStep upd) () (s1.makeMut.writeSlice l, t) =
        (q.1, (s1.makeMut.writeSlice l', q.2.2)) ∧
      ∀ w, ValidWord N w → (at? N l w = some (f w) → at? N l' w = some (q.2.1 w)) ∧ ((∀ uv ∈ P, uv.1 ++ uv.2 ≠ w) → at? N l' w = at? N l w) := by
  induction P generalizing l t f with
  | nil =>
    subst hq
    exact ⟨l, rfl, rfl, fun w _ => ⟨fun h => h, fun _ => rfl⟩⟩
  | cons uv P ih =>
    have h0 := hf uv (by simp)
    have hi : wordIndex N (uv.1 ++ uv.2) < l.length := by
      unfold at? at h0
      exact (List.getElem?_eq_some_iff.1 h0).1
    have hv := hP uv (by simp)
    have hset : ∀ (y : S) (w : List Nat), ValidWord N w →
        at? N (l.set (wordIndex N (uv.1 ++ uv.2)) y) w = if w = uv.1 ++ uv.2 then some y else at? N l w := by
      intro y w hw
      unfold at?
      split_ifs with h
      · rw [h, List.getElem?_set_self hi]
      · rw [List.getElem?_set_ne (fun e => h (wordIndex_inj hw hv e.symm))]
    have hupd : ∀ (y : S) (w : List Nat), ValidWord N w → at? N l w = some (f w) →
        at? N (l.set (wordIndex N (uv.1 ++ uv.2)) y) w = some (Function.update f (uv.1 ++ uv.2) y w) := by
      intro y w hw h
      rw [hset y w hw, Function.update_apply]
      split_ifs
      · rfl
      · exact h
    rw [List.map_cons, List.foldlM_cons, bind_apply]
    rw [List.map_cons, runUpdates] at hq
    unfold at? at h0
    unfold updStep
    simp only [Dense.writeSlice_data, h0]
    rcases hu : upd t (f (uv.1 ++ uv.2)) (fac uv).1 (fac uv).2 with ⟨⟨⟩ | _ | _ | _, y, t'⟩
    · rw [hu] at hq
      simp only at hq ⊢
      rw [write_again]
      obtain ⟨l', i1, i2, i3⟩ := ih (fun uv h => hP uv (by simp [h])) (l.set (wordIndex N (uv.1 ++ uv.2)) y) t' (Function.update f (uv.1 ++ uv.2) y)
        (fun uv' h => hupd y _ (hP uv' (by simp [h])) (hf uv' (by simp [h]))) hq
      refine ⟨l', by simpa using i1, i2, fun w hw => ⟨fun h => (i3 w hw).1 (hupd y w hw h), fun h => ?_⟩⟩
      rw [(i3 w hw).2 (fun uv' h' => h uv' (by simp [h'])), hset y w hw, if_neg (fun e => h uv (by simp) e.symm)]
    all_goals
      rw [hu] at hq
      simp only at hq ⊢
      subst hq
      rw [write_again]
      refine ⟨l.set (wordIndex N (uv.1 ++ uv.2)) y, by simp, rfl, fun w hw => ⟨fun h => hupd y w hw h, fun h => ?_⟩⟩
      rw [hset y w hw, if_neg (fun e => h uv (by simp) e.symm)]

/-! ## Coefficients that never panic -/

theorem fold_congr_inv {σ A B : Type} (f g : B → A → Unw σ B) (I : σ → Prop) (L : List A) (h : ∀ b, ∀ a ∈ L, ∀ s, I s → f b a s = g b a s ∧ I (g b a s).2)
    (b : B) (s : σ) (hs : I s) : L.foldlM f b s = L.foldlM g b s ∧ I (L.foldlM g b s).2 := by
  induction L generalizing b s with
  | nil => exact ⟨rfl, hs⟩
  | cons a L ih =>
    rw [List.foldlM_cons, List.foldlM_cons, bind_apply, bind_apply]
    obtain ⟨h1, h2⟩ := h b a (by simp) s hs
    rw [h1]
    rcases hq : g b a s with ⟨b' | _ | _ | _, s'⟩
    · rw [hq] at h2
      exact ih (fun b a ha => h b a (by simp [ha])) b' s' h2
    all_goals
      rw [hq] at h2
      exact ⟨rfl, h2⟩

theorem lift_congr {σ A B : Type} (r : Res A) (f g : A → Unw σ B) (s : σ) (h : ∀ a, r = .ok a → f a s = g a s) : (lift r >>= f) s = (lift r >>= g) s := by
  cases r with
  | ok a => exact h a rfl
  | _ => rfl

theorem set_eq_modify (l : List S) (i : Nat) (f : S → S) (o : S) (h : l[i]? = some o) : l.set i (f o) = l.modify i f := by
  apply List.ext_getElem?
  intro j
  rw [List.getElem?_set, List.getElem?_modify]
  have := (List.getElem?_eq_some_iff.1 h).1
  by_cases hj : i = j
  · subst hj
    have h' := (List.getElem?_eq_some_iff.1 h).2
    simp [this, h']
  · simp [hj]

theorem set_same (l : List S) (i : Nat) (o : S) (h : l[i]? = some o) : l.set i o = l := by
  have := set_eq_modify l i id o h
  simp only [id] at this
  rw [this]
  exact List.modify_id _ _

theorem bufStepF_total (C : Coeff S R) (func : ClosureU S T) (lo len n : Nat) (hn : lo + len ≤ n) (a b : S) (ptr : Nat) (st : Dense S × T)
    (h : st.1.data.length = n ∧ asMut st.1 = st.1) :
    bufStepF (addProduct (.ofCoeff C) func) lo len a ptr b st = bufStepU C func lo len a ptr b st ∧
      (bufStepU C func lo len a ptr b st).2.1.data.length = n ∧ asMut (bufStepU C func lo len a ptr b st).2.1 = (bufStepU C func lo len a ptr b st).2.1 := by
  unfold bufStepF bufStepU addProduct FCoeff.ofCoeff
  by_cases hp : ptr < len
  · rw [if_pos hp, if_pos hp]
    have hi : lo + ptr < st.1.data.length := by omega
    have hg := List.getElem?_eq_getElem hi
    rw [hg]
    simp only
    have hw : st.1.writeSlice st.1.data = st.1 := by
      have := h.2
      unfold asMut at this
      rcases hs : st.1 with ⟨_ | _ | _, data, lent⟩ <;> rw [hs] at this
      · rfl
      · cases this
      · exact this
    rcases func st.2 (C.mul a b) with ⟨y | _ | _ | _, t⟩
    · simp only
      rw [set_eq_modify _ _ (fun x => C.add x y) _ hg]
      refine ⟨rfl, by rw [Dense.writeSlice_data, List.length_modify]; exact h.1, ?_⟩
      conv_lhs => rw [← h.2]
      conv_rhs => rw [← h.2]
      unfold asMut
      rw [write_again, write_write, Dense.writeSlice_data]
    all_goals
      simp only
      rw [set_same _ _ _ hg, hw]
      exact ⟨rfl, h⟩
  · rw [if_neg hp, if_neg hp]
    exact ⟨rfl, h⟩

theorem mulIntoBufferF_total (C : Coeff S R) (func : ClosureU S T) (lo len n : Nat) (hn : lo + len ≤ n) (l r : List S) (st : Dense S × T)
    (h : st.1.data.length = n ∧ asMut st.1 = st.1) :
    mulIntoBufferF (addProduct (.ofCoeff C) func) lo len l r st = mulIntoBufferU C func lo len l r st ∧
      (mulIntoBufferU C func lo len l r st).2.1.data.length = n ∧
      asMut (mulIntoBufferU C func lo len l r st).2.1 = (mulIntoBufferU C func lo len l r st).2.1 := by
  have := fold_congr_inv (fun ptr a => r.foldlM (bufStepF (addProduct (.ofCoeff C) func) lo len a) ptr) (fun ptr a => r.foldlM (bufStepU C func lo len a) ptr)
    (fun st : Dense S × T => st.1.data.length = n ∧ asMut st.1 = st.1) l
    (fun ptr a _ st hs => fold_congr_inv _ _ (fun st : Dense S × T => st.1.data.length = n ∧ asMut st.1 = st.1) r
      (fun ptr b _ st hs => bufStepF_total C func lo len n hn a b ptr st hs) ptr st hs) 0 st h
  unfold mulIntoBufferF mulIntoBufferU
  simp only [bind_apply]
  rw [this.1]
  rcases hq : List.foldlM (fun ptr a => r.foldlM (bufStepU C func lo len a) ptr) 0 l st with ⟨_ | _ | _ | _, s⟩
  all_goals
    rw [hq] at this
    exact ⟨rfl, this.2⟩

theorem mulAddStepF_total (C : Coeff S R) (p : Profile) (N : Nat) (func : ClosureU S T) (a b : Dense S) (o k : Nat) (st : Dense S × T) :
    mulAddStepF p N (addProduct (.ofCoeff C) func) a b o () k st = mulAddStepU C p N func a b o () k st := by
  have asMut_asMut : asMut (asMut st.1) = asMut st.1 := asMut_again _ _
  unfold mulAddStepF mulAddStepU
  refine lift_congr _ _ _ _ fun rhsD _ => ?_
  rw [asMutU_bind, asMutU_bind]
  refine lift_congr _ _ _ _ fun ro _ => ?_
  refine lift_congr _ _ _ _ fun x hx => ?_
  have h : ro.1 ≤ ro.2 ∧ ro.2 ≤ st.1.data.length := by
    unfold sliceUnchecked at hx
    split_ifs at hx with h
    exact h
  have hb := fun l r => (mulIntoBufferF_total C func ro.1 (ro.2 - ro.1) st.1.data.length (by omega) l r (asMut st.1, st.2)
    ⟨by rw [asMut_data], asMut_asMut⟩).1
  refine lift_congr _ _ _ _ fun rl _ => ?_
  refine lift_congr _ _ _ _ fun l _ => ?_
  refine lift_congr _ _ _ _ fun rr _ => ?_
  refine lift_congr _ _ _ _ fun r _ => ?_
  exact hb l r

end Fallible

section
open Spec Fallible DenseAlg
variable {S R : Type} (F : FCoeff S R) (p : Profile) (N : Nat)

/-- C100.  `multiply_and_add_into_impl` with coefficients, and a closure, that may panic: the vector is grown first; then, pair of words by pair of words, the two
coefficients are multiplied, the closure is called, and its value is added.  If any of the three panics the product panics, the coefficient at that place holds
what the addition left (its old value if the addition had not begun), the earlier pairs are in, and the later ones are not. -/
theorem C100_product (h2 : 2 ≤ N) (s a b : Dense S) (ds da db D : Nat) (hs : HasDegree N s ds) (ha : HasDegree N a da) (hb : HasDegree N b db)
    (hp : N ^ (min D (da + db) + 1) < 2 ^ 64) (hf : OperandsFit N a b da db (min D (da + db)))
    (hself : (s.size ≤ geomSum N (min D (da + db)) ∧ 1 ≤ min D (da + db)) ∨ geomSum N (min D (da + db) + 1) ≤ s.size)
    (T : Type) (func : ClosureU S T) (t : T) (q : Res Unit × ((List Nat → S) × T))
    (hq : q = runUpdates (addProduct F func) (fun w => (stored N s w).getD F.zero) t
      ((callOrder N (min D (da + db)) da db).map fun uv => (uv, ((stored N a uv.1).getD F.zero, (stored N b uv.2).getD F.zero)))) :
    ∃ left : Dense S, mulAddIntoF F p N func a b (some D) (s, t) = (q.1, (left, q.2.2)) ∧
      left.size = max s.size (geomSum N (min D (da + db) + 1)) ∧ ∀ w, ValidWord N w → stored N left w =
        if w.length ≤ min D (da + db) then some (q.2.1 w) else stored N s w := by
  obtain ⟨s1, h3, h4, h5⟩ := mulAddIntoF_eq F p N h2 s a b ds da db D hs.1 ha.1 hb.1 hs.2 ha.2 hb.2 hp hf.1 hf.2 hself
  have hmem : ∀ uv ∈ callOrder N (min D (da + db)) da db, ValidWord N (uv.1 ++ uv.2) ∧ (uv.1 ++ uv.2).length ≤ min D (da + db) := by
    intro uv h
    have := (mem_callOrder N (uv := uv)).1 h
    refine ⟨fun c hc => ?_, by rw [List.length_append]; exact this.2.2.2.2⟩
    rcases List.mem_append.1 hc with hc | hc
    · exact this.1 c hc
    · exact this.2.1 c hc
  obtain ⟨l', i1, i2, i3⟩ := updates_words (addProduct F func) N
    (fun uv => ((stored N a uv.1).getD F.zero, (stored N b uv.2).getD F.zero)) (callOrder N (min D (da + db)) da db) (fun uv h => (hmem uv h).1) s1 s1.data t
    (fun w => (stored N s w).getD F.zero) (fun uv h => by rw [h4 _ (hmem uv h).1, if_pos (hmem uv h).2]; rfl) q hq
  refine ⟨s1.makeMut.writeSlice l', ?_, ?_, fun w hw => ?_⟩
  · rw [h5]
    exact i2
  · unfold Dense.size
    rw [Dense.writeSlice_data, i1, h3]
  · unfold stored
    rw [Dense.writeSlice_data]
    by_cases hl : w.length ≤ min D (da + db)
    · rw [if_pos hl]
      exact (i3 w hw).1 (by rw [h4 w hw, if_pos hl]; rfl)
    · rw [if_neg hl]
      refine ((i3 w hw).2 fun uv h e => hl (by rw [← e]; exact (hmem uv h).2)).trans ?_
      rw [h4 w hw, if_neg hl]
      rfl

/-- C100.  With coefficients that never panic this is the product of `C95`, for all operands. -/
theorem C100_product_total {T : Type} (C : Coeff S R) (func : ClosureU S T) (s a b : Dense S) (D : Option Nat) (t : T) :
    mulAddIntoF (.ofCoeff C) p N func a b D (s, t) = mulAddIntoU C p N func a b D (s, t) := by
  have h1 : (mulAddDegreeF p N (addProduct (.ofCoeff C) func) a b : Nat → Nat → Unit → Nat → Unw (Dense S × T) Unit) = mulAddDegreeU C p N func a b := by
    funext da db _ o
    have : (mulAddStepF p N (addProduct (.ofCoeff C) func) a b o : Unit → Nat → Unw (Dense S × T) Unit) = mulAddStepU C p N func a b o := by
      funext _ k st
      exact mulAddStepF_total C p N func a b o k st
    unfold mulAddDegreeF mulAddDegreeU
    rw [this]
  have h2 : (growToF (.ofCoeff C) p N : Nat → Unw (Dense S × T) Unit) = growToU C p N := by
    funext m st
    exact growToF_eq (FCoeff.ofCoeff C) p N m st
  unfold mulAddIntoF mulAddIntoU
  rw [h1, h2]

end

/-! ## Examples -/

section
open Spec Fallible DenseAlg

/-- Integers between `-99` and `99`, with arithmetic that panics when a result is out of range.  An in-place operation that panics leaves its operand alone, except
that a multiplication that panics leaves a zero. -/
def checkedInt : FCoeff Int Int :=
  let fit (x : Int) : Bool := -99 ≤ x && x ≤ 99
  { zero := 0, one := 1, mone := -1, eq := fun a b => .ok (a == b), uminus := fun a => if fit (-a) then .ok (-a) else .panic
    mul := fun a b => if fit (a * b) then .ok (a * b) else .panic, div := fun a b => if b = 0 then .panic else .ok (a / b)
    addIn := fun a b => if fit (a + b) then (.ok (), a + b) else (.panic, a)
    subIn := fun a b => if fit (a - b) then (.ok (), a - b) else (.panic, a)
    mulIn := fun a b => if fit (a * b) then (.ok (), a * b) else (.panic, 0)
    divIn := fun a b => if b = 0 then (.panic, a) else (.ok (), a / b) }

/-- The second of three additions is out of range. -/
example : dAdd checkedInt (.ofVec [1, 90]) (.ofVec [2, 10, 5]) = (.panic, .ofVec [3, 90, 0]) := by decide

/-- It is the loop that stops at index 1. -/
example : Loop (fun i => checkedInt.addIn (([1, 90] : List Int)[i]?.getD 0) (([2, 10, 5] : List Int)[i]?.getD 0)) 3
    (fun i => if i < 3 then some (([1, 90] : List Int)[i]?.getD 0) else none) .panic (fun i => ([3, 90, 0] : List Int)[i]?) := by
  have := (C100_dense_add checkedInt (.ofVec [1, 90]) (.ofVec [2, 10, 5])).1
  rw [show dAdd checkedInt (.ofVec [1, 90]) (.ofVec [2, 10, 5]) = (.panic, .ofVec [3, 90, 0]) by decide] at this
  exact this

/-- Through an exclusively borrowed buffer the lender sees the same half-done state. -/
example : dMul checkedInt ⟨.borrowedMut, [3, 60, 4], [3, 60, 4]⟩ 2 = (.panic, ⟨.borrowedMut, [6, 0, 4], [6, 0, 4]⟩) := by decide

example : (dMul checkedInt ⟨.borrowedMut, [3, 60, 4], [3, 60, 4]⟩ 2).2.lent = (dMul checkedInt ⟨.borrowedMut, [3, 60, 4], [3, 60, 4]⟩ 2).2.data :=
  (((C100_dense_lender checkedInt ⟨.borrowedMut, [3, 60, 4], [3, 60, 4]⟩ .new 2 1).2 _ (.inl rfl)).1 rfl).2

/-- A sum of sparse vectors that stops at its third entry. -/
example : sAdd checkedInt ⟨[(1, 5), (2, 90), (3, 4)]⟩ ⟨[(7, 1), (1, -5), (2, 10), (3, 1)]⟩ =
    (.panic, (⟨[(2, 90), (3, 4), (7, 1)]⟩ : Sparse Nat Int)) := by decide

example : Sparse.NoDup (sAdd checkedInt ⟨[(1, 5), (2, 90), (3, 4)]⟩ (⟨[(7, 1), (1, -5), (2, 10), (3, 1)]⟩ : Sparse Nat Int)).2.entries :=
  (C100_sparse_add checkedInt ⟨[(1, 5), (2, 90), (3, 4)]⟩ ⟨[(7, 1), (1, -5), (2, 10), (3, 1)]⟩ (by unfold Sparse.NoDup; decide)
    (by unfold Sparse.NoDup; decide) _ _ (.inl ⟨rfl, rfl⟩)).1

/-- Multiplying a sparse vector by a scalar. -/
example : sMul checkedInt ⟨[(1, 5), (2, 90), (3, 4)]⟩ 2 = (.panic, (⟨[(1, 10), (2, 0), (3, 4)]⟩ : Sparse Nat Int)) := by decide

/-- `(50 + e1) * (1 + e2 * 3)` into `60 + 60 e1 + 60 e2`: the product of 50 and 3 is out of range. -/
example : mulAddIntoF checkedInt .debug 2 (fun (t : Unit) x => (.ok x, t)) (.ofVec [50, 1, 0]) (.ofVec [1, 0, 3]) (some 1) (.ofVec [60, 60, 60], ()) =
    (.panic, (.ofVec [60, 61, 60], ())) := by decide +kernel

/-- With 1 for 3 only the last addition, to the constant, is. -/
example : ∃ left : Dense Int, mulAddIntoF checkedInt .debug 2 (fun (t : Unit) x => (.ok x, t)) (.ofVec [50, 1, 0]) (.ofVec [1, 0, 0]) (some 1)
      (.ofVec [60, 60, 60], ()) = (.panic, (left, ())) ∧ left.size = 3 ∧ stored 2 left [] = some 60 ∧ stored 2 left [1] = some 61 := by
  obtain ⟨left, h1, h2, h3⟩ := C100_product checkedInt .debug 2 (by omega) (.ofVec [60, 60, 60]) (.ofVec [50, 1, 0]) (.ofVec [1, 0, 0]) 1 1 1 1
    ⟨by decide, by decide⟩ ⟨by decide, by decide⟩ ⟨by decide, by decide⟩ (by decide) ⟨by decide, by decide⟩ (Or.inr (by decide)) Unit
    (fun t x => (.ok x, t)) () _ rfl
  refine ⟨left, h1.trans ?_, h2, ?_, ?_⟩
  · rw [Prod.mk.injEq]
    exact ⟨by decide +kernel, rfl⟩
  · rw [h3 [] (by simp [ValidWord])]
    decide +kernel
  · rw [h3 [1] (by simp [ValidWord])]
    decide +kernel

end
end RA
