import Verif.Props.NoOverflowProg
import Verif.SpecSteps

/-!
# Exactly when programs over guarded coefficients return

Guarded coefficients compute in a ring and panic as soon as a result is not in order.
-/

namespace RA
open Spec TensorKey TensorBasis Fallible DenseAlg

/-- A result, if it is in order. -/
noncomputable def guardTo {S : Type} (ok : S → Prop) (x : S) : Res S := open Classical in if ok x then .ok x else .panic

/-- An operation in place; the operand stays as it is if the result is not in order. -/
noncomputable def guardIn {S : Type} (ok : S → Prop) (old x : S) : Res Unit × S := open Classical in if ok x then (.ok (), x) else (.panic, old)

/-- The ring operations of these coefficients return the exact result if it is in order, and panic if not. -/
structure FCoeff.Guards {S R : Type} [CommRing S] (F : FCoeff S R) (ok : S → Prop) : Prop where
  zero : F.zero = 0
  one : F.one = 1
  mone : F.mone = -1
  eq : ∀ x y b, F.eq x y = .ok b → (b = true ↔ x = y)
  uminus : ∀ x, F.uminus x = guardTo ok (-x)
  mul : ∀ x y, F.mul x y = guardTo ok (x * y)
  addIn : ∀ x y, F.addIn x y = guardIn ok x (x + y)
  subIn : ∀ x y, F.subIn x y = guardIn ok x (x - y)
  mulIn : ∀ x y, F.mulIn x y = guardIn ok x (x * y)

/-- Guarded coefficients; comparison and division are arbitrary. -/
noncomputable def guarded {S R : Type} [CommRing S] (ok : S → Prop) (e : S → S → Res Bool) (d : S → R → Res S) (dI : S → R → Res Unit × S) : FCoeff S R :=
  { zero := 0, one := 1, mone := -1, eq := e, uminus := fun x => guardTo ok (-x), mul := fun x y => guardTo ok (x * y), div := d
    addIn := fun x y => guardIn ok x (x + y), subIn := fun x y => guardIn ok x (x - y), mulIn := fun x y => guardIn ok x (x * y), divIn := dI }

section
variable {S : Type} {ok : S → Prop}

theorem guardTo_pos {x : S} (h : ok x) : guardTo ok x = .ok x := if_pos h
theorem guardTo_neg {x : S} (h : ¬ ok x) : guardTo ok x = .panic := if_neg h
theorem guardIn_pos {o x : S} (h : ok x) : guardIn ok o x = (.ok (), x) := if_pos h
theorem guardIn_neg {o x : S} (h : ¬ ok x) : guardIn ok o x = (.panic, o) := if_neg h

theorem guardTo_iff {x : S} : (∃ y, guardTo ok x = .ok y) ↔ ok x := by
  unfold guardTo
  split_ifs with h
  · exact ⟨fun _ => h, fun _ => ⟨_, rfl⟩⟩
  · exact ⟨fun ⟨_, h'⟩ => (nomatch h'), fun h' => (h h').elim⟩

theorem guardIn_iff {o x : S} : (guardIn ok o x).1 = .ok () ↔ ok x := by
  unfold guardIn
  split_ifs with h
  · exact ⟨fun _ => h, fun _ => rfl⟩
  · exact ⟨fun h' => (nomatch h'), fun h' => (h h').elim⟩

theorem guardTo_inv {x z : S} (h : guardTo ok x = .ok z) : z = x := by
  unfold guardTo at h
  split at h <;> cases h
  rfl

theorem guardIn_inv {o x : S} (h : (guardIn ok o x).1 = .ok ()) : (guardIn ok o x).2 = x := by
  rw [guardIn_pos (guardIn_iff.1 h)]

end

theorem FCoeff.Guards.shape {S R : Type} [CommRing S] {ok : S → Prop} {F : FCoeff S R} (h : F.Guards ok) : F = guarded ok F.eq F.div F.divIn := by
  obtain ⟨z, o, m, e, u, mu, d, a, s, mi, di⟩ := F
  obtain ⟨h1, h2, h3, -, h4, h5, h6, h7, h8⟩ := h
  unfold guarded
  rw [FCoeff.mk.injEq]
  exact ⟨h1, h2, h3, rfl, funext h4, funext fun x => funext (h5 x), rfl, funext fun x => funext (h6 x), funext fun x => funext (h7 x), funext fun x => funext (h8 x), rfl⟩

section
variable {S R : Type} [CommRing S] {ok : S → Prop} {e : S → S → Res Bool} {d : S → R → Res S} {dI : S → R → Res Unit × S}

/-! ## Lists of terms -/

theorem sumsIn_filter {A : Type} (h : A → S) (q : A → Bool) (l : List A) (hq : ∀ a ∈ l, q a = false → h a = 0) : ∀ x, ok x →
    (SumsIn ok x ((l.filter q).map h) ↔ SumsIn ok x (l.map h)) := by
  induction l with
  | nil => exact fun _ _ => Iff.rfl
  | cons a l ih =>
    intro x hx
    have ih := ih fun b hb => hq b (by simp [hb])
    cases c : q a with
    | true =>
      rw [List.filter_cons_of_pos c, List.map_cons, List.map_cons]
      exact and_congr_right fun hb => ih _ hb
    | false =>
      rw [List.filter_cons_of_neg (by simp [c]), List.map_cons, hq a (by simp) c]
      show _ ↔ ok (x + 0) ∧ SumsIn ok (x + 0) _
      rw [add_zero, ih x hx]
      exact ⟨fun h => ⟨hx, h⟩, fun h => h.2⟩

theorem sum_filter {A : Type} (h : A → S) (q : A → Bool) (l : List A) (hq : ∀ a ∈ l, q a = false → h a = 0) : ((l.filter q).map h).sum = (l.map h).sum := by
  induction l with
  | nil => rfl
  | cons a l ih =>
    have ih := ih fun b hb => hq b (by simp [hb])
    cases c : q a with
    | true => rw [List.filter_cons_of_pos c, List.map_cons, List.map_cons, List.sum_cons, List.sum_cons, ih]
    | false => rw [List.filter_cons_of_neg (by simp [c]), List.map_cons, List.sum_cons, hq a (by simp) c, zero_add, ih]

theorem sum_prodTerms (f g : List Nat → S) (w : List Nat) : (prodTerms f g w).sum = conv f g w := by
  rw [conv_eq_sum]
  unfold prodTerms splits
  rw [List.map_map, ← List.sum_reverse, ← List.map_reverse, List.reverse_reverse]
  rfl

/-! ## The order of the products of one word -/

theorem callOrder_sorted (N M da db : Nat) : (callOrder N M da db).Pairwise fun x y =>
    y.1.length + y.2.length < x.1.length + x.2.length ∨ (x.1.length + x.2.length = y.1.length + y.2.length ∧ y.1.length ≤ x.1.length) := by
  unfold callOrder
  rw [List.pairwise_flatMap]
  refine ⟨fun o _ => ?_, ?_⟩
  · rw [List.pairwise_flatMap]
    refine ⟨fun k hk => ?_, ?_⟩
    · rw [List.mem_reverse, List.mem_range'_1] at hk
      refine List.pairwise_of_forall_mem_list fun x hx y hy => ?_
      rw [mem_wordPairs] at hx hy
      omega
    · rw [List.pairwise_reverse]
      refine (List.pairwise_lt_range' (s := o - db) (n := min o da + 1 - (o - db))).imp_of_mem ?_
      intro k k' hk hk' hlt x hx y hy
      rw [List.mem_range'_1] at hk hk'
      rw [mem_wordPairs] at hx hy
      omega
  · rw [List.pairwise_reverse]
    refine List.pairwise_lt_range.imp ?_
    intro o o' hlt x hx y hy
    simp only [List.mem_flatMap, List.mem_reverse, List.mem_range'_1, mem_wordPairs] at hx hy
    obtain ⟨k, hk, hx⟩ := hx
    obtain ⟨k', hk', hy⟩ := hy
    omega

theorem splits_sorted (w : List Nat) : (splits w).Pairwise fun x y => y.1.length ≤ x.1.length := by
  unfold splits
  rw [List.pairwise_map, List.pairwise_reverse]
  refine List.pairwise_lt_range.imp fun h => ?_
  simp only [List.length_take]
  omega

theorem splits_distinct (w : List Nat) : (splits w).Nodup := by
  unfold splits
  rw [List.nodup_iff_pairwise_ne, List.pairwise_map, List.pairwise_reverse]
  refine List.pairwise_lt_range.imp_of_mem fun {k k'} h h' hlt e => ?_
  rw [List.mem_range] at h h'
  have := congrArg (fun x => x.1.length) e
  simp only [List.length_take] at this
  omega

/-- The pairs that form `w` come in the order of the splittings of `w`. -/
theorem callOrder_splits (N D da db : Nat) (w : List Nat) (hv : ValidWord N w) (hd : w.length ≤ D) :
    (callOrder N (min D (da + db)) da db).filter (fun uv => uv.1 ++ uv.2 = w) =
      (splits w).filter fun uv => decide (uv.1.length ≤ da ∧ uv.2.length ≤ db) := by
  have hmem : ∀ uv, uv ∈ (callOrder N (min D (da + db)) da db).filter (fun uv => uv.1 ++ uv.2 = w) ↔
      uv ∈ (splits w).filter fun uv => decide (uv.1.length ≤ da ∧ uv.2.length ≤ db) := by
    intro uv
    rw [List.mem_filter, List.mem_filter, mem_callOrder, splits_spec]
    simp only [decide_eq_true_eq]
    constructor
    · rintro ⟨h, h'⟩
      exact ⟨h', h.2.2.1, h.2.2.2.1⟩
    · rintro ⟨rfl, h1, h2⟩
      rw [List.length_append] at hd
      exact ⟨⟨fun c hc => hv c (List.mem_append_left _ hc), fun c hc => hv c (List.mem_append_right _ hc), h1, h2, by omega⟩, rfl⟩
  refine List.Perm.eq_of_pairwise (le := fun x y => y.1.length ≤ x.1.length) ?_ ?_ ((splits_sorted w).filter _) ?_
  · intro x y hx hy h1 h2
    have ex : x.1 ++ x.2 = w := by simpa using (List.mem_filter.1 hx).2
    have ey : y.1 ++ y.2 = w := (splits_spec w y.1 y.2).1 (List.mem_filter.1 hy).1
    obtain ⟨e1, e2⟩ := List.append_inj (ex.trans ey.symm) (le_antisymm h2 h1)
    exact Prod.ext e1 e2
  · refine ((callOrder_sorted N (min D (da + db)) da db).filter _).imp_of_mem ?_
    intro x y hx hy h
    have ex : x.1 ++ x.2 = w := by simpa using (List.mem_filter.1 hx).2
    have ey : y.1 ++ y.2 = w := by simpa using (List.mem_filter.1 hy).2
    have := congrArg List.length (ex.trans ey.symm)
    rw [List.length_append, List.length_append] at this
    omega
  · exact (List.perm_ext_iff_of_nodup ((callOrder_nodup N _ da db).filter _) ((splits_distinct w).filter _)).2 hmem

/-! ## One product -/

/-- The products of the pairs whose words form `w`. -/
def factorTerms (L : List ((List Nat × List Nat) × (S × S))) (w : List Nat) : List S :=
  (L.filter fun e => e.1.1 ++ e.1.2 = w).map fun e => e.2.1 * e.2.2

theorem runUpdates_exact {ε : S} {func : S → Res S} (hf : ∀ x, ok x → func x = guardTo ok (ε * x))
    (L : List ((List Nat × List Nat) × (S × S))) : ∀ f : List Nat → S,
    ((runUpdates (addProduct (guarded ok e d dI) fun (t : Unit) x => (func x, t)) f () L).1 = .ok () ↔
      ∀ w, (∀ t ∈ factorTerms L w, ok t ∧ ok (ε * t)) ∧ SumsIn ok (f w) ((factorTerms L w).map (ε * ·))) ∧
    ((runUpdates (addProduct (guarded ok e d dI) fun (t : Unit) x => (func x, t)) f () L).1 = .ok () →
      ∀ w, (runUpdates (addProduct (guarded ok e d dI) fun (t : Unit) x => (func x, t)) f () L).2.1 w = f w + ((factorTerms L w).map (ε * ·)).sum) := by
  induction L with
  | nil =>
    intro f
    exact ⟨⟨fun _ w => ⟨fun t ht => (nomatch ht), trivial⟩, fun _ => rfl⟩, fun _ w => by simp [factorTerms, runUpdates]⟩
  | cons e L ih =>
    intro f
    obtain ⟨uv, a, b⟩ := e
    have hpos : factorTerms ((uv, a, b) :: L) (uv.1 ++ uv.2) = a * b :: factorTerms L (uv.1 ++ uv.2) := by
      unfold factorTerms
      rw [List.filter_cons_of_pos (by simp), List.map_cons]
    have hneg : ∀ w, w ≠ uv.1 ++ uv.2 → factorTerms ((uv, a, b) :: L) w = factorTerms L w := by
      intro w hw
      unfold factorTerms
      rw [List.filter_cons_of_neg (by simpa using fun h => hw h.symm)]
    by_cases hab : ok (a * b)
    swap
    · have hup : addProduct (guarded ok e d dI) (fun (t : Unit) x => (func x, t)) () (f (uv.1 ++ uv.2)) a b = (.panic, (f (uv.1 ++ uv.2), ())) := by
        unfold addProduct
        rw [show (guarded ok e d dI).mul a b = .panic from guardTo_neg hab]
      have step : (runUpdates (addProduct (guarded ok e d dI) fun (t : Unit) x => (func x, t)) f () ((uv, a, b) :: L)).1 = .panic := by
        unfold runUpdates
        simp only [hup]
      rw [step]
      refine ⟨⟨nofun, fun h => (hab ?_).elim⟩, nofun⟩
      have := (h (uv.1 ++ uv.2)).1 (a * b) (by rw [hpos]; simp)
      exact this.1
    have hmul : (guarded ok e d dI).mul a b = .ok (a * b) := guardTo_pos hab
    by_cases hε : ok (ε * (a * b))
    swap
    · have hup : addProduct (guarded ok e d dI) (fun (t : Unit) x => (func x, t)) () (f (uv.1 ++ uv.2)) a b = (.panic, (f (uv.1 ++ uv.2), ())) := by
        unfold addProduct
        rw [hmul]
        simp only
        rw [hf _ hab, guardTo_neg hε]
      have step : (runUpdates (addProduct (guarded ok e d dI) fun (t : Unit) x => (func x, t)) f () ((uv, a, b) :: L)).1 = .panic := by
        unfold runUpdates
        simp only [hup]
      rw [step]
      refine ⟨⟨nofun, fun h => (hε ?_).elim⟩, nofun⟩
      exact ((h (uv.1 ++ uv.2)).1 (a * b) (by rw [hpos]; simp)).2
    have hfun : func (a * b) = .ok (ε * (a * b)) := by rw [hf _ hab, guardTo_pos hε]
    by_cases hs : ok (f (uv.1 ++ uv.2) + ε * (a * b))
    swap
    · have hup : addProduct (guarded ok e d dI) (fun (t : Unit) x => (func x, t)) () (f (uv.1 ++ uv.2)) a b = (.panic, (f (uv.1 ++ uv.2), ())) := by
        unfold addProduct
        rw [hmul]
        simp only
        rw [hfun]
        simp only
        rw [show (guarded ok e d dI).addIn (f (uv.1 ++ uv.2)) (ε * (a * b)) = (.panic, f (uv.1 ++ uv.2)) from guardIn_neg hs]
      have step : (runUpdates (addProduct (guarded ok e d dI) fun (t : Unit) x => (func x, t)) f () ((uv, a, b) :: L)).1 = .panic := by
        unfold runUpdates
        simp only [hup]
      rw [step]
      refine ⟨⟨nofun, fun h => (hs ?_).elim⟩, nofun⟩
      have := (h (uv.1 ++ uv.2)).2
      rw [hpos] at this
      exact this.1
    have hup : addProduct (guarded ok e d dI) (fun (t : Unit) x => (func x, t)) () (f (uv.1 ++ uv.2)) a b = (.ok (), (f (uv.1 ++ uv.2) + ε * (a * b), ())) := by
      unfold addProduct
      rw [hmul]
      simp only
      rw [hfun]
      simp only
      rw [show (guarded ok e d dI).addIn (f (uv.1 ++ uv.2)) (ε * (a * b)) = (.ok (), f (uv.1 ++ uv.2) + ε * (a * b)) from guardIn_pos hs]
    have step : runUpdates (addProduct (guarded ok e d dI) fun (t : Unit) x => (func x, t)) f () ((uv, a, b) :: L) =
        runUpdates (addProduct (guarded ok e d dI) fun (t : Unit) x => (func x, t)) (Function.update f (uv.1 ++ uv.2) (f (uv.1 ++ uv.2) + ε * (a * b))) () L := by
      conv_lhs => unfold runUpdates
      simp only [hup]
    rw [step]
    obtain ⟨i1, i2⟩ := ih (Function.update f (uv.1 ++ uv.2) (f (uv.1 ++ uv.2) + ε * (a * b)))
    refine ⟨i1.trans (forall_congr' fun w => ?_), fun h w => ?_⟩
    · by_cases hw : w = uv.1 ++ uv.2
      · subst hw
        rw [Function.update_self, hpos, List.map_cons]
        simp only [List.mem_cons, forall_eq_or_imp]
        exact and_congr ⟨fun h => ⟨⟨hab, hε⟩, h⟩, fun h => h.2⟩ ⟨fun h => ⟨hs, h⟩, fun h => h.2⟩
      · rw [Function.update_of_ne hw, hneg w hw]
    · rw [i2 h w]
      by_cases hw : w = uv.1 ++ uv.2
      · subst hw
        rw [Function.update_self, hpos, List.map_cons, List.sum_cons, add_assoc]
      · rw [Function.update_of_ne hw, hneg w hw]

theorem factorTerms_callOrder (N D da db : Nat) (a b : List Nat → S) (w : List Nat) :
    factorTerms ((callOrder N (min D (da + db)) da db).map fun uv => (uv, (a uv.1, b uv.2))) w =
      ((callOrder N (min D (da + db)) da db).filter fun uv => uv.1 ++ uv.2 = w).map fun uv => a uv.1 * b uv.2 := by
  unfold factorTerms
  rw [List.filter_map, List.map_map]
  rfl

section
variable (p : Profile) (N : Nat)

/-- The value at a word; nothing stored counts as zero. -/
def val (N : Nat) (v : Dense S) (w : List Nat) : S := (stored N v w).getD 0

theorem val_beyond {v : Dense S} {n : Nat} (hv : v.size = geomSum N n) {w : List Nat} (hw : ValidWord N w) (h : n ≤ w.length) : val N v w = 0 := by
  have := (wordIndex_bounds hw).1
  have := geomSum_mono (N := N) h
  unfold val stored
  rw [List.getElem?_eq_none (by unfold Dense.size at hv; omega)]
  rfl

theorem mulAdd_exact {ε : S} (h0 : ok 0) (h2 : 2 ≤ N) {func : S → Res S} (hf : ∀ x, ok x → func x = guardTo ok (ε * x)) (s a b : Dense S)
    (ls la lb D E : Nat) (hs : s.size = geomSum N ls) (ha : a.size = geomSum N la) (hb : b.size = geomSum N lb) (hls : ls ≤ E + 1) (hla : la ≤ E + 1) (hlb : lb ≤ E + 1)
    (hD : D ≤ E) (hp : N ^ (E + 1) < 2 ^ 64) (h1a : 1 ≤ la) (h1b : 1 ≤ lb) (hself : 1 ≤ ls ∨ 1 ≤ prodDeg D la lb) (ms ma mb : List Nat → S)
    (ha' : ∀ w, ValidWord N w → w.length ≤ E → val N a w = ma w) (hb' : ∀ w, ValidWord N w → w.length ≤ E → val N b w = mb w)
    (hs' : ∀ w, ValidWord N w → w.length ≤ E → val N s w = ms w) (hms : ∀ w, ValidWord N w → w.length ≤ E → ok (ms w)) :
    ((∃ r, temp (tMulAdd (guarded ok e d dI) p N func s a b (some D)) = .ok r) ↔
      ∀ w, ValidWord N w → w.length ≤ E → w.length ≤ D → ProdIn ok ε (ms w) ma mb w) ∧
    ∀ r, temp (tMulAdd (guarded ok e d dI) p N func s a b (some D)) = .ok r → r.size = geomSum N (max ls (prodDeg D la lb + 1)) ∧
      ∀ w, ValidWord N w → w.length ≤ E → val N r w = ms w + ε * cutProd D ma mb w := by
  obtain ⟨da, rfl⟩ : ∃ da, la = da + 1 := ⟨la - 1, by omega⟩
  obtain ⟨db, rfl⟩ : ∃ db, lb = db + 1 := ⟨lb - 1, by omega⟩
  change 1 ≤ ls ∨ 1 ≤ min D (da + db) at hself
  have hpm : N ^ (min D (da + db) + 1) < 2 ^ 64 := pow_lt64_mono h2 (by omega) hp
  have hda : HasDegree N a da := FullTo.hasDegree h2 ⟨ha, pow_lt64_mono h2 (by omega) hp⟩
  have hdb : HasDegree N b db := FullTo.hasDegree h2 ⟨hb, pow_lt64_mono h2 (by omega) hp⟩
  have hds : HasDegree N s (ls - 1) := by
    rcases Nat.eq_zero_or_pos ls with rfl | h
    · exact ⟨.inl ⟨hs, rfl⟩, pow_lt64_mono h2 (by omega) hp⟩
    · exact FullTo.hasDegree h2 ⟨by rw [hs, Nat.sub_add_cancel h], pow_lt64_mono h2 (by omega) hp⟩
  have hself' : (s.size ≤ geomSum N (min D (da + db)) ∧ 1 ≤ min D (da + db)) ∨ geomSum N (min D (da + db) + 1) ≤ s.size := by
    rw [hs]
    rcases Nat.lt_or_ge (min D (da + db)) ls with h | h
    · exact .inr (geomSum_mono h)
    · exact .inl ⟨geomSum_mono h, by omega⟩
  have hfit : OperandsFit N a b da db (min D (da + db)) :=
    ⟨by rw [ha]; exact geomSum_mono (by omega), by rw [hb]; exact geomSum_mono (by omega)⟩
  obtain ⟨r, g1, g2, g3⟩ := C100_product (guarded ok e d dI) p N h2 s a b _ da db D hds hda hdb hpm hfit hself' Unit (fun t x => (func x, t)) () _ rfl
  obtain ⟨u1, u2⟩ := runUpdates_exact (e := e) (d := d) (dI := dI) hf ((callOrder N (min D (da + db)) da db).map fun uv => (uv, (val N a uv.1, val N b uv.2))) (val N s)
  change mulAddIntoF (guarded ok e d dI) p N _ a b (some D) (s, ()) = ((runUpdates (addProduct (guarded ok e d dI) fun (t : Unit) x => (func x, t)) (val N s) ()
    ((callOrder N (min D (da + db)) da db).map fun uv => (uv, (val N a uv.1, val N b uv.2)))).1, _) at g1
  -- the terms at a word
  have hzero : ∀ w, ValidWord N w → w.length ≤ D → ∀ uv ∈ splits w, decide (uv.1.length ≤ da ∧ uv.2.length ≤ db) = false → ma uv.1 * mb uv.2 = 0 := by
    intro w hv hd uv huv hc
    have e : uv.1 ++ uv.2 = w := (splits_spec w uv.1 uv.2).1 huv
    subst e
    rw [List.length_append] at hd
    have v1 : ValidWord N uv.1 := fun c hc => hv c (List.mem_append_left _ hc)
    have v2 : ValidWord N uv.2 := fun c hc => hv c (List.mem_append_right _ hc)
    rw [decide_eq_false_iff_not] at hc
    rcases Nat.lt_or_ge da uv.1.length with c | c
    · rw [← ha' _ v1 (by omega), val_beyond N ha v1 c, zero_mul]
    · rw [← hb' _ v2 (by omega), val_beyond N hb v2 (by omega), mul_zero]
  have hterms : ∀ w, ValidWord N w → w.length ≤ D → factorTerms ((callOrder N (min D (da + db)) da db).map fun uv => (uv, (val N a uv.1, val N b uv.2))) w =
      ((splits w).filter fun uv => decide (uv.1.length ≤ da ∧ uv.2.length ≤ db)).map fun uv => ma uv.1 * mb uv.2 := by
    intro w hv hd
    rw [factorTerms_callOrder, callOrder_splits N D da db w hv hd]
    refine List.map_congr_left fun uv huv => ?_
    have e : uv.1 ++ uv.2 = w := (splits_spec w uv.1 uv.2).1 (List.mem_filter.1 huv).1
    subst e
    rw [List.length_append] at hd
    rw [ha' _ (fun c hc => hv c (List.mem_append_left _ hc)) (by omega), hb' _ (fun c hc => hv c (List.mem_append_right _ hc)) (by omega)]
  have hnone : ∀ w, ¬ (ValidWord N w ∧ w.length ≤ D) → factorTerms ((callOrder N (min D (da + db)) da db).map fun uv => (uv, (val N a uv.1, val N b uv.2))) w = [] := by
    intro w hw
    rw [factorTerms_callOrder, List.filter_eq_nil_iff.2, List.map_nil]
    intro uv huv
    rw [mem_callOrder] at huv
    simp only [decide_eq_true_eq]
    rintro rfl
    refine hw ⟨fun c hc => (List.mem_append.1 hc).elim (huv.1 c) (huv.2.1 c), ?_⟩
    rw [List.length_append]
    omega
  have hprod : ∀ w, ValidWord N w → w.length ≤ D →
      (((∀ t ∈ factorTerms ((callOrder N (min D (da + db)) da db).map fun uv => (uv, (val N a uv.1, val N b uv.2))) w, ok t ∧ ok (ε * t)) ∧
        SumsIn ok (val N s w) ((factorTerms ((callOrder N (min D (da + db)) da db).map fun uv => (uv, (val N a uv.1, val N b uv.2))) w).map (ε * ·))) ↔
      ProdIn ok ε (ms w) ma mb w) := by
    intro w hv hd
    rw [hterms w hv hd, hs' w hv (by omega), List.map_map]
    unfold ProdIn prodTerms
    rw [List.map_map, sumsIn_filter ((ε * ·) ∘ fun uv : List Nat × List Nat => ma uv.1 * mb uv.2) _ (splits w)
      (fun uv huv hc => by simp only [Function.comp]; rw [hzero w hv hd uv huv hc, mul_zero]) _ (hms w hv (by omega))]
    refine and_congr_left fun _ => ⟨fun h t ht => ?_, fun h t ht => ?_⟩
    · obtain ⟨uv, huv, rfl⟩ := List.mem_map.1 ht
      cases hc : decide (uv.1.length ≤ da ∧ uv.2.length ≤ db) with
      | true => exact h _ (List.mem_map.2 ⟨uv, List.mem_filter.2 ⟨huv, hc⟩, rfl⟩)
      | false =>
        rw [hzero w hv hd uv huv hc, mul_zero]
        exact ⟨h0, h0⟩
    · obtain ⟨uv, huv, rfl⟩ := List.mem_map.1 ht
      exact h _ (List.mem_map.2 ⟨uv, (List.mem_filter.1 huv).1, rfl⟩)
  have htemp : ∀ r', temp (tMulAdd (guarded ok e d dI) p N func s a b (some D)) = .ok r' ↔
      (runUpdates (addProduct (guarded ok e d dI) fun (t : Unit) x => (func x, t)) (val N s) ()
        ((callOrder N (min D (da + db)) da db).map fun uv => (uv, (val N a uv.1, val N b uv.2)))).1 = .ok () ∧ r' = r := by
    intro r'
    unfold tMulAdd temp
    simp only [g1]
    split
    · rename_i h
      rw [h]
      exact ⟨fun e => ⟨rfl, by cases e; rfl⟩, fun e => by rw [e.2]⟩
    all_goals
      rename_i h
      rw [h]
      exact ⟨nofun, fun e => (nomatch e.1)⟩
  constructor
  · simp only [htemp, exists_and_left, exists_eq, and_true]
    rw [u1]
    constructor
    · intro h w hv _ hd
      exact (hprod w hv hd).1 (h w)
    · intro h w
      by_cases hw : ValidWord N w ∧ w.length ≤ D
      · exact (hprod w hw.1 hw.2).2 (h w hw.1 (by omega) hw.2)
      · rw [hnone w hw]
        exact ⟨fun t ht => (nomatch ht), trivial⟩
  · intro r' hr'
    obtain ⟨hok, rfl⟩ := (htemp r').1 hr'
    refine ⟨?_, fun w hv hd => ?_⟩
    · rw [g2, hs, geomSum_max]
      rfl
    · have hv' := u2 hok w
      have hz : ∀ w, ValidWord N w → w.length ≤ D → ((factorTerms ((callOrder N (min D (da + db)) da db).map fun uv => (uv, (val N a uv.1, val N b uv.2))) w).map (ε * ·)).sum =
          ε * conv ma mb w := by
        intro w hv hd
        rw [hterms w hv hd, List.map_map, sum_filter ((ε * ·) ∘ fun uv : List Nat × List Nat => ma uv.1 * mb uv.2) _ (splits w)
          (fun uv huv hc => by simp only [Function.comp]; rw [hzero w hv hd uv huv hc, mul_zero]), ← sum_prodTerms]
        unfold prodTerms
        rw [← List.sum_map_mul_left]
        rfl
      unfold val
      rw [g3 w hv]
      unfold cutProd
      split_ifs with c1 c2 c2
      · exact hv'.trans (by rw [hz w hv c2, hs' w hv hd])
      · omega
      · -- nothing of this length in the product
        rw [show (stored N s w).getD 0 = val N s w from rfl, hs' w hv hd, ← hz w hv c2, factorTerms_callOrder, List.filter_eq_nil_iff.2]
        · simp
        · intro uv huv
          rw [mem_callOrder] at huv
          simp only [decide_eq_true_eq]
          rintro rfl
          rw [List.length_append] at c1
          omega
      · rw [show (stored N s w).getD 0 = val N s w from rfl, hs' w hv hd, mul_zero, add_zero]

/-! ## The other operations -/

theorem loop_iff {S : Type} {turn : Nat → Res Unit × S} {n : Nat} {old new : Nat → Option S} {r : Res Unit} (h : Loop turn n old r new) :
    r = .ok () ↔ ∀ i, i < n → (turn i).1 = .ok () := by
  refine ⟨fun hr => ?_, fun ht => (loop_all h ht).1⟩
  obtain ⟨j, h1, h2, -⟩ := h
  rw [hr] at h2
  unfold outcomeAt at h2
  split_ifs at h2 with hj
  · exact (h1.2.2 hj h2.symm).elim
  · exact fun i hi => h1.2.1 i (by omega)

theorem temp_iff {S : Type} {q : Res Unit × Dense S} : (∃ r, temp q = .ok r) ↔ q.1 = .ok () := by
  unfold temp
  split <;> rename_i h <;> rw [h]
  · exact ⟨fun _ => rfl, fun _ => ⟨_, rfl⟩⟩
  all_goals exact ⟨fun ⟨_, h⟩ => (nomatch h), nofun⟩

theorem sumF_iff (l : List S) : ∀ x, (∃ y, sumF (guarded ok e d dI).addIn x l = .ok y) ↔ SumsIn ok x l := by
  induction l with
  | nil => exact fun x => ⟨fun _ => trivial, fun _ => ⟨x, rfl⟩⟩
  | cons t l ih =>
    intro x
    show (∃ y, ((guardIn ok x (x + t)).1 >>= fun _ => sumF (guarded ok e d dI).addIn (guardIn ok x (x + t)).2 l) = .ok y) ↔ ok (x + t) ∧ SumsIn ok (x + t) l
    by_cases hb : ok (x + t)
    · rw [guardIn_pos hb]
      simp only [Res.bind_ok]
      rw [ih]
      exact ⟨fun h => ⟨hb, h⟩, fun h => h.2⟩
    · rw [guardIn_neg hb]
      exact ⟨fun ⟨_, h⟩ => (nomatch h), fun h => (hb h.1).elim⟩

theorem fromIteratorF_exact (h2 : 2 ≤ N) (hN : N < 2 ^ 32) {D : Nat} (hm : D ≤ maxDepth N) (hp : N ^ (D + 1) < 2 ^ 64)
    (items : List (List Nat × S)) (hw : ∀ e ∈ items, ValidWord N e.1 ∧ e.1.length ≤ D) :
    (∃ r, (items.mapM (fun e => (fun k => (k, e.2)) <$> fromLetters p N e.1) >>= fromIteratorF (guarded ok e d dI) (tensorBasis p N)) = .ok r) ↔
      ∀ w, ValidWord N w → w.length ≤ D → SumsIn ok 0 (itemValues items w) := by
  have hmapM : items.mapM (fun e => (fun k => (k, e.2)) <$> fromLetters p N e.1) = .ok (items.map fun e => (keyOf N e.1, e.2)) := by
    induction items with
    | nil => rfl
    | cons e es ih =>
      rw [List.mapM_cons, fromLetters_ok p N (by omega) hN e.1 (hw e (by simp)).1 ((hw e (by simp)).2.trans hm), ih fun e' h => hw e' (by simp [h])]
      rfl
  rw [hmapM, Res.bind_ok]
  by_cases hne : items = []
  · subst hne
    refine ⟨fun _ w _ _ => trivial, fun _ => ⟨.new, ?_⟩⟩
    unfold fromIteratorF
    rw [List.map_nil, List.mapM_nil, Res.pure_eq, Res.bind_ok, List.mergeSort_nil]
    rfl
  obtain ⟨l1, e0, he0, l2⟩ := itemLevels_spec items hne
  have hD : itemLevels items ≤ D + 1 := itemLevels_le items fun e he => (hw e he).2
  obtain ⟨M, hM⟩ : ∃ M, itemLevels items = M + 1 := ⟨itemLevels items - 1, by omega⟩
  have hpM : N ^ (M + 1) < 2 ^ 64 := pow_lt64_mono h2 (by omega) hp
  let idx : TensorKey → Nat := fun k => match (tensorBasis p N).keyToIndex k with | .ok i => i | _ => 0
  have hidx : ∀ e ∈ items, (tensorBasis p N).keyToIndex (keyOf N e.1) = .ok (wordIndex N e.1) := fun e he =>
    keyToIndex_keyOf p N (by omega) hN e.1 (hw e he).1 ((hw e he).2.trans hm)
  have hidx' : ∀ e ∈ items, idx (keyOf N e.1) = wordIndex N e.1 := fun e he => by simp only [idx, hidx e he]
  have hlt : ∀ e ∈ items, wordIndex N e.1 < geomSum N (M + 1) := by
    intro e he
    have := (wordIndex_bounds (hw e he).1).2
    have := geomSum_mono (N := N) (show e.1.length + 1 ≤ M + 1 by have := l1 e he; omega)
    omega
  have hd64 := deg_lt64 h2 hpM
  obtain ⟨c1, c2⟩ := C101_from_iterator (guarded ok e d dI) (tensorBasis p N) (items.map fun e => (keyOf N e.1, e.2)) idx
    (by
      intro e he
      obtain ⟨e', he', rfl⟩ := List.mem_map.1 he
      rw [hidx e' he', hidx' e' he'])
    (by
      intro h
      rw [List.map_eq_nil_iff] at h
      exact hne h)
    (geomSum N (M + 1))
    (by
      intro e he
      obtain ⟨e', he', rfl⟩ := List.mem_map.1 he
      simp only
      rw [hidx' e' he']
      exact hlt e' he')
    (by
      intro e he hmax
      obtain ⟨e', he', rfl⟩ := List.mem_map.1 he
      have hmx := hmax (keyOf N e0.1, e0.2) (List.mem_map.2 ⟨e0, he0, rfl⟩)
      simp only at hmx ⊢
      rw [hidx' e' he', hidx' e0 he0] at hmx
      have hbm := (wordIndex_bounds (hw e0 he0).1).1
      rw [show e0.1.length = M by omega] at hbm
      rw [hidx' e' he']
      show vectorDimensionForIndex p N _ = _
      unfold vectorDimensionForIndex
      rw [indexToDegree_ok p N h2 _ M hpM (by omega) (hlt e' he'), Res.bind_ok, addW_ok (by omega), Res.bind_ok, startOfDegree_ok p N h2 _ hpM])
  have hvals : ∀ w, ValidWord N w → ((items.map fun e => (keyOf N e.1, e.2)).filter fun e => idx e.1 = wordIndex N w).map (·.2) = itemValues items w := by
    intro w hv
    rw [List.filter_map, List.map_map]
    unfold itemValues
    congr 1
    refine List.filter_congr fun e he => ?_
    simp only [Function.comp, hidx' e he]
    rw [decide_eq_decide]
    exact ⟨fun h => wordIndex_inj (hw e he).1 hv h, fun h => by rw [h]⟩
  have hbeyond : ∀ w, M < w.length → itemValues items w = [] := by
    intro w hl
    unfold itemValues
    rw [List.filter_eq_nil_iff.2, List.map_nil]
    intro e he
    have := l1 e he
    simp only [decide_eq_true_eq]
    rintro rfl
    omega
  constructor
  · rintro ⟨r, hr⟩ w hv hl
    rcases Nat.lt_or_ge M w.length with c | c
    · rw [hbeyond w c]
      trivial
    · have hb := (wordIndex_bounds hv).2
      have := geomSum_mono (N := N) (show w.length + 1 ≤ M + 1 by omega)
      obtain ⟨y, y1, -⟩ := (c1 r hr).2.2 (wordIndex N w) (by omega)
      rw [hvals w hv] at y1
      exact (sumF_iff (e := e) (d := d) (dI := dI) _ _).1 ⟨y, y1⟩
  · intro h
    refine c2 fun i hi => ?_
    obtain ⟨w, hv, hl, rfl⟩ := index_word N (by omega) hi
    rw [hvals w hv]
    exact (sumF_iff (e := e) (d := d) (dI := dI) _ _).2 (h w hv (by omega))

theorem combine_exact (h1 : 1 ≤ N) {D : Nat} {x y : Dense S} {new : Nat → Option S} {res : Res Unit} {g : S → S → Res Unit × S} {op : S → S → S}
    (hg : ∀ a b, (g a b).1 = .ok () ↔ ok (op a b)) (h0 : ∀ a, op a 0 = a)
    (hl : Loop (fun i => g (x.data[i]?.getD 0) (y.data[i]?.getD 0)) y.size
      (fun i => if i < max x.size y.size then some (x.data[i]?.getD 0) else none) res new)
    (hy : y.size ≤ geomSum N (D + 1)) (hx : ∀ w, ValidWord N w → w.length ≤ D → ok (val N x w)) :
    res = .ok () ↔ ∀ w, ValidWord N w → w.length ≤ D → ok (op (val N x w) (val N y w)) := by
  rw [loop_iff hl]
  constructor
  · intro h w hv hd
    rcases Nat.lt_or_ge (wordIndex N w) y.size with c | c
    · exact (hg _ _).1 (h _ c)
    · have : val N y w = 0 := by
        unfold val stored
        rw [List.getElem?_eq_none (by unfold Dense.size at c; omega)]
        rfl
      rw [this, h0]
      exact hx w hv hd
  · intro h i hi
    obtain ⟨w, hv, hd, rfl⟩ := index_word N h1 (lt_of_lt_of_le hi hy)
    exact (hg _ _).2 (h w hv hd)

theorem each_exact (h1 : 1 ≤ N) {D : Nat} {x : Dense S} {old new : Nat → Option S} {res : Res Unit} {turn : Nat → Res Unit × S} {op : S → S}
    (hl : Loop turn x.size old res new) (hg : ∀ i, (turn i).1 = .ok () ↔ ok (op (x.data[i]?.getD 0))) (h0 : ok (op 0)) (hx : x.size ≤ geomSum N (D + 1)) :
    res = .ok () ↔ ∀ w, ValidWord N w → w.length ≤ D → ok (op (val N x w)) := by
  rw [loop_iff hl]
  constructor
  · intro h w hv hd
    rcases Nat.lt_or_ge (wordIndex N w) x.size with c | c
    · exact (hg _).1 (h _ c)
    · have : val N x w = 0 := by
        unfold val stored
        rw [List.getElem?_eq_none (by unfold Dense.size at c; omega)]
        rfl
      rw [this]
      exact h0
  · intro h i hi
    obtain ⟨w, hv, hd, rfl⟩ := index_word N h1 (lt_of_lt_of_le hi hx)
    exact (hg _).2 (h w hv hd)

/-! ## One statement -/

theorem stmt_exact (h0 : ok 0) (h2 : 2 ≤ N) (hN : N < 2 ^ 32) {D : Nat} (hm : D ≤ maxDepth N) (hp : N ^ (D + 1) < 2 ^ 64)
    (st : PStmt S R) (hw : st.Within N D) (hal : st.Algebraic) {σ : Nat → Dense S} {l : Nat → Nat} (hsz : ∀ i, (σ i).size = geomSum N (l i)) (hl : ∀ i, l i ≤ D + 1)
    (ha : st.allowed l = true) {ρ : Nat → List Nat → S} (h : ∀ i w, ValidWord N w → w.length ≤ D → val N (σ i) w = ρ i w)
    (hB : ∀ i w, ValidWord N w → w.length ≤ D → ok (ρ i w)) :
    (∃ σ', runStmtF (guarded ok e d dI) p N σ st = .ok σ') ↔ ∀ w, ValidWord N w → w.length ≤ D → st.NumbersIn ok ρ w := by
  have hle : ∀ i, (σ i).size ≤ geomSum N (D + 1) := fun i => by rw [hsz]; exact geomSum_mono (hl i)
  have hrun : ∀ {i : Nat} {x : Res (Dense S)}, (∃ σ', (x >>= fun v => .ok (setReg σ i v)) = .ok σ') ↔ ∃ r, x = .ok r := by
    intro i x
    constructor
    · rintro ⟨σ', h⟩
      obtain ⟨r, hr, -⟩ := bind_ok_inv h
      exact ⟨r, hr⟩
    · rintro ⟨r, rfl⟩
      exact ⟨_, rfl⟩
  have hval : ∀ i w, ValidWord N w → w.length ≤ D → ok (val N (σ i) w) := fun i w hv hd => by rw [h i w hv hd]; exact hB i w hv hd
  have hok : ∀ x, ok x → (.ok x : Res S) = guardTo ok (1 * x) := fun x hx => by rw [one_mul]; exact (guardTo_pos hx).symm
  have hum : ∀ x, ok x → (guarded ok e d dI).uminus x = guardTo ok (-1 * x) := fun x _ => by rw [neg_one_mul]; rfl
  have hnew : (.new : Dense S).size = geomSum N 0 := rfl
  have hnv : ∀ w, ValidWord N w → w.length ≤ D → val N (.new : Dense S) w = 0 := fun w _ _ => rfl
  have triv : ∀ {x : Res (Nat → Dense S)} {Q : List Nat → Prop}, (∃ σ', x = .ok σ') → (∀ w, Q w) → ((∃ σ', x = .ok σ') ↔ ∀ w, ValidWord N w → w.length ≤ D → Q w) :=
    fun h1 h2 => ⟨fun _ w _ _ => h2 w, fun _ => h1⟩
  cases st with
  | zero i | copy i j | swap i j | clear i => exact triv ⟨_, rfl⟩ fun _ => trivial
  | word i v s =>
    refine triv ?_ fun _ => trivial
    obtain ⟨r, h3, -, h5⟩ := fromKeyScalar_word (⟨(0 : S), 1, -1, id, fun _ => 1, fun x _ => x, fun x _ => x, fun x _ => x, fun x _ => x, fun _ => 1,
      fun _ => (), fun _ _ => true⟩ : Coeff S Unit) p N h2 hN v hw.1 (hw.2.trans hm) (pow_lt64_mono h2 (by have := hw.2; omega) hp) s
    obtain ⟨k, k1, k2⟩ := bind_ok_inv h3
    show ∃ σ', (fromLetters p N v >>= fun k => dFromKeyScalar (guarded ok e d dI) (tensorBasis p N) k s >>= fun v => .ok (setReg σ i v)) = .ok σ'
    rw [k1, Res.bind_ok]
    exact hrun.2 ⟨r, k2⟩
  | terms i items =>
    refine Iff.trans ?_ (fromIteratorF_exact (e := e) (d := d) (dI := dI) p N h2 hN hm hp items hw)
    show (∃ σ', (items.mapM (fun e => (fun k => (k, e.2)) <$> fromLetters p N e.1) >>= fun keys =>
      fromIteratorF (guarded ok e d dI) (tensorBasis p N) keys >>= fun v => .ok (setReg σ i v)) = .ok σ') ↔ _
    cases items.mapM (fun e => (fun k => (k, e.2)) <$> fromLetters p N e.1) with
    | ok keys => exact hrun
    | _ => exact ⟨fun ⟨_, h⟩ => (nomatch h), fun ⟨_, h⟩ => (nomatch h)⟩
  | modify | div => exact hal.elim
  | erase i v =>
    refine triv ?_ fun _ => trivial
    have hk := keyToIndex_keyOf p N (by omega) hN v hw.1 (hw.2.trans hm)
    show ∃ σ', (fromLetters p N v >>= fun k => dErase (guarded ok e d dI) (tensorBasis p N) (σ i) k >>= fun v => .ok (setReg σ i v)) = .ok σ'
    rw [fromLetters_ok p N (by omega) hN v hw.1 (hw.2.trans hm), Res.bind_ok]
    refine hrun.2 ?_
    unfold dErase Dense.getMut
    rw [show (tensorBasis p N).keyToIndex (keyOf N v) = _ from hk, Res.bind_ok]
    split_ifs
    · exact ⟨_, rfl⟩
    · exact ⟨_, rfl⟩
  | neg i =>
    refine hrun.trans (temp_iff.trans ?_)
    rw [each_exact N (by omega) (ok := ok) (op := fun a => -a) (dUminus_loop (F := guarded ok e d dI) (σ i)) (fun n => ?_) (by rw [neg_zero]; exact h0) (hle i)]
    · exact forall_congr' fun w => forall_congr' fun hv => forall_congr' fun hd => by rw [h i w hv hd]; rfl
    · show (guardTo ok (-((σ i).data[n]?.getD 0)) >>= fun _ => (.ok () : Res Unit)) = .ok () ↔ _
      rw [← guardTo_iff (ok := ok)]
      cases guardTo ok (-((σ i).data[n]?.getD 0)) with
      | ok y => exact ⟨fun _ => ⟨y, rfl⟩, fun _ => rfl⟩
      | _ => exact ⟨nofun, fun ⟨_, h⟩ => (nomatch h)⟩
  | add i j =>
    refine hrun.trans (temp_iff.trans ?_)
    rw [combine_exact N (by omega) (ok := ok) (g := (guarded ok e d dI).addIn) (op := fun a b => a + b) (fun a b => guardIn_iff) add_zero (C100_dense_add (guarded ok e d dI) (σ i) (σ j)).1 (hle j) (hval i)]
    exact forall_congr' fun w => forall_congr' fun hv => forall_congr' fun hd => by rw [h i w hv hd, h j w hv hd]; rfl
  | sub i j =>
    refine hrun.trans (temp_iff.trans ?_)
    rw [combine_exact N (by omega) (ok := ok) (g := (guarded ok e d dI).subIn) (op := fun a b => a - b) (fun a b => guardIn_iff) sub_zero (C100_dense_add (guarded ok e d dI) (σ i) (σ j)).2 (hle j) (hval i)]
    exact forall_congr' fun w => forall_congr' fun hv => forall_congr' fun hd => by rw [h i w hv hd, h j w hv hd]; rfl
  | scale i s =>
    refine hrun.trans (temp_iff.trans ?_)
    rw [each_exact N (by omega) (ok := ok) (op := fun a => a * s) (dMul_loop (guarded ok e d dI) (σ i) s) (fun n => guardIn_iff)
      (by rw [zero_mul]; exact h0) (hle i)]
    exact forall_congr' fun w => forall_congr' fun hv => forall_congr' fun hd => by rw [h i w hv hd]; rfl
  | mul i j k D' =>
    obtain ⟨a1, a2, a3⟩ := of_decide_eq_true ha
    exact hrun.trans (mulAdd_exact (e := e) (d := d) (dI := dI) p N h0 h2 hok .new (σ j) (σ k) 0 (l j) (l k) D' D hnew (hsz j) (hsz k) (by omega) (hl j) (hl k) hw hp a1 a2 (.inr a3)
      (fun _ => 0) _ _ (h j) (h k) hnv fun _ _ _ => h0).1
  | comm i j k D' =>
    obtain ⟨a1, a2, a3⟩ := of_decide_eq_true ha
    obtain ⟨e1, e2⟩ := mulAdd_exact (e := e) (d := d) (dI := dI) p N h0 h2 hok .new (σ j) (σ k) 0 (l j) (l k) D' D hnew (hsz j) (hsz k) (by omega) (hl j) (hl k) hw hp a1 a2 (.inr a3)
      (fun _ => 0) _ _ (h j) (h k) hnv fun _ _ _ => h0
    refine hrun.trans ?_
    unfold tCommutator tAddMul tSubMul
    cases hr : temp (tMulAdd (guarded ok e d dI) p N .ok .new (σ j) (σ k) (some D')) with
    | ok r =>
      obtain ⟨r2, r3⟩ := e2 r hr
      have hr3 : ∀ w, ValidWord N w → w.length ≤ D → val N r w = cutProd D' (ρ j) (ρ k) w := fun w hv hd => by rw [r3 w hv hd]; ring
      have hp1 := e1.1 ⟨r, hr⟩
      have hb : ∀ w, ValidWord N w → w.length ≤ D → ok (cutProd D' (ρ j) (ρ k) w) := by
        intro w hv hd
        unfold cutProd
        split_ifs with c
        · have := (hp1 w hv hd c).2
          rw [← sum_prodTerms]
          have key : ∀ (l : List S) (x : S), ok x → SumsIn ok x (l.map (1 * ·)) → ok (x + l.sum) := by
            intro l
            induction l with
            | nil => exact fun x hx _ => by rw [List.sum_nil, add_zero]; exact hx
            | cons t l ih =>
              intro x _ hs
              obtain ⟨s1, s2⟩ := hs
              beta_reduce at s1 s2
              rw [one_mul] at s1 s2
              rw [List.sum_cons, ← add_assoc]
              exact ih _ s1 s2
          have := key _ 0 h0 this
          rwa [zero_add] at this
        · exact h0
      have e3 := (mulAdd_exact (e := e) (d := d) (dI := dI) p N h0 h2 hum r (σ k) (σ j) _ (l k) (l j) D' D r2 (hsz k) (hsz j)
        (by unfold prodDeg; have : D' ≤ D := hw; omega) (hl k) (hl j) hw hp a2 a1 (.inl (by omega)) _ _ _ (h k) (h j) hr3 hb).1
      refine Iff.trans e3 ⟨fun h w hv hd hd' => ⟨hp1 w hv hd hd', ?_⟩, fun h w hv hd hd' => ?_⟩
      · have := h w hv hd hd'
        unfold cutProd at this
        rwa [if_pos hd'] at this
      · have := (h w hv hd hd').2
        unfold cutProd
        rwa [if_pos hd']
    | _ =>
      refine ⟨fun ⟨_, h⟩ => (nomatch h), fun h => ?_⟩
      obtain ⟨r, hr'⟩ := e1.2 fun w hv hd hd' => (h w hv hd hd').1
      rw [hr] at hr'
      cases hr'
  | addMul i j k D' =>
    obtain ⟨a1, a2, a3⟩ := of_decide_eq_true ha
    exact hrun.trans (mulAdd_exact (e := e) (d := d) (dI := dI) p N h0 h2 hok (σ i) (σ j) (σ k) (l i) (l j) (l k) D' D (hsz i) (hsz j) (hsz k) (hl i) (hl j) (hl k) hw hp a1 a2 a3
      _ _ _ (h j) (h k) (h i) (hB i)).1
  | subMul i j k D' =>
    obtain ⟨a1, a2, a3⟩ := of_decide_eq_true ha
    exact hrun.trans (mulAdd_exact (e := e) (d := d) (dI := dI) p N h0 h2 hum (σ i) (σ j) (σ k) (l i) (l j) (l k) D' D (hsz i) (hsz j) (hsz k) (hl i) (hl j) (hl k) hw hp a1 a2 a3
      _ _ _ (h j) (h k) (h i) (hB i)).1

/-! ## Programs -/

theorem numbersIn_append {R : Type} {D : Nat} (pre : List (PStmt S R)) (s : PStmt S R) : ∀ ρ : Nat → List Nat → S,
    NumbersIn ok N D ρ (pre ++ [s]) ↔ NumbersIn ok N D ρ pre ∧ ∀ w, ValidWord N w → w.length ≤ D → s.NumbersIn ok (pre.foldl PStmt.value ρ) w := by
  induction pre with
  | nil => exact fun ρ => ⟨fun h => ⟨trivial, h.1⟩, fun h => ⟨h.2, trivial⟩⟩
  | cons t pre ih =>
    intro ρ
    rw [List.foldl_cons, List.cons_append]
    exact ⟨fun h => ⟨⟨h.1, ((ih _).1 h.2).1⟩, ((ih _).1 h.2).2⟩, fun h => ⟨h.1.1, (ih _).2 ⟨h.1.2, h.2⟩⟩⟩

theorem sumsIn_sum (l : List S) : ∀ x, ok x → SumsIn ok x l → ok (x + l.sum) := by
  induction l with
  | nil => exact fun x hx _ => by rw [List.sum_nil, add_zero]; exact hx
  | cons t l ih =>
    intro x _ h
    rw [List.sum_cons, ← add_assoc]
    exact ih _ h.1 h.2

theorem prodIn_sum {ε x : S} {f g : List Nat → S} {w : List Nat} (hx : ok x) (h : ProdIn ok ε x f g w) : ok (x + ε * conv f g w) := by
  have := sumsIn_sum _ x hx h.2
  rwa [List.sum_map_mul_left, List.map_id', sum_prodTerms] at this

/-- If the numbers a statement computes are in order, so are the coefficients that it leaves. -/
theorem stmt_ok (h0 : ok 0) {D : Nat} (s : PStmt S R) (hal : s.Algebraic) (hs : s.Scalars ok) {ρ : Nat → List Nat → S}
    (hρ : ∀ i w, ValidWord N w → w.length ≤ D → ok (ρ i w)) (h : ∀ w, ValidWord N w → w.length ≤ D → s.NumbersIn ok ρ w) :
    ∀ i w, ValidWord N w → w.length ≤ D → ok (s.value ρ i w) := by
  have hset : ∀ {ρ : Nat → List Nat → S} {i : Nat} {f : List Nat → S}, (∀ i w, ValidWord N w → w.length ≤ D → ok (ρ i w)) →
      (∀ w, ValidWord N w → w.length ≤ D → ok (f w)) → ∀ j w, ValidWord N w → w.length ≤ D → ok (setReg ρ i f j w) := by
    intro ρ i f hρ hf j
    unfold setReg
    split_ifs
    exacts [hf, hρ j]
  cases s with
  | zero i | clear i => exact hset hρ fun _ _ _ => h0
  | word i w s => exact hset hρ fun u _ _ => by split_ifs; exacts [hs, h0]
  | terms i items => exact hset hρ fun u hv hd => by simpa using sumsIn_sum _ 0 h0 (h u hv hd)
  | copy i j => exact hset hρ (hρ j)
  | swap i j => exact hset (hset hρ (hρ j)) (hρ i)
  | erase i w => exact hset hρ fun u hv hd => by split_ifs; exacts [h0, hρ i u hv hd]
  | neg i | add i j | sub i j | scale i s => exact hset hρ h
  | mul i j k D' =>
    refine hset hρ fun u hv hd => ?_
    unfold cutProd
    split_ifs with c
    · simpa using prodIn_sum h0 (h u hv hd c)
    · exact h0
  | comm i j k D' =>
    refine hset hρ fun u hv hd => ?_
    unfold cutProd
    split_ifs with c
    · obtain ⟨c1, c2⟩ := h u hv hd c
      have c3 := prodIn_sum h0 c1
      rw [one_mul, zero_add] at c3
      have c4 := prodIn_sum c3 c2
      rwa [neg_one_mul, ← sub_eq_add_neg] at c4
    · rw [sub_zero]; exact h0
  | addMul i j k D' =>
    refine hset hρ fun u hv hd => ?_
    unfold cutProd
    split_ifs with c
    · simpa using prodIn_sum (hρ i u hv hd) (h u hv hd c)
    · rw [add_zero]; exact hρ i u hv hd
  | subMul i j k D' =>
    refine hset hρ fun u hv hd => ?_
    unfold cutProd
    split_ifs with c
    · have := prodIn_sum (hρ i u hv hd) (h u hv hd c)
      rwa [neg_one_mul, ← sub_eq_add_neg] at this
    · rw [sub_zero]; exact hρ i u hv hd
  | modify | div => exact hal.elim

theorem numbersIn_last (h0 : ok 0) {D : Nat} (prog : List (PStmt S R)) : ∀ ρ : Nat → List Nat → S, (∀ s ∈ prog, s.Algebraic ∧ s.Scalars ok) →
    (∀ i w, ValidWord N w → w.length ≤ D → ok (ρ i w)) → NumbersIn ok N D ρ prog → ∀ i w, ValidWord N w → w.length ≤ D → ok (prog.foldl PStmt.value ρ i w) := by
  induction prog with
  | nil => exact fun ρ _ h _ => h
  | cons s prog ih =>
    intro ρ hs hρ h
    exact ih _ (fun t ht => hs t (by simp [ht])) (stmt_ok N h0 s (hs s (by simp)).1 (hs s (by simp)).2 hρ h.1) h.2

theorem allowedProg_append {S R : Type} (pre post : List (PStmt S R)) : ∀ l, allowedProg l (pre ++ post) = (allowedProg l pre && allowedProg (pre.foldl PStmt.levels l) post) := by
  induction pre with
  | nil => exact fun _ => rfl
  | cons s pre ih =>
    intro l
    show (s.allowed l && allowedProg (s.levels l) (pre ++ post)) = (s.allowed l && allowedProg (s.levels l) pre && allowedProg (pre.foldl PStmt.levels (s.levels l)) post)
    rw [ih, Bool.and_assoc]


/-- The ring itself as coefficients. -/
noncomputable def ringCoeff (S : Type) [CommRing S] : Coeff S Unit :=
  open Classical in
  { zero := 0, one := 1, mone := -1, uminus := fun a => -a, inv := fun _ => 0, add := (· + ·), sub := (· - ·), mul := (· * ·), div := fun a _ => a, fromDegree := fun _ => 0
    ratFromDegree := fun _ => (), eq := fun a b => decide (a = b) }

theorem ringCoeff_isRing : (ringCoeff S).IsRing := ⟨rfl, rfl, rfl, fun _ => rfl, fun _ _ => rfl, fun _ _ => rfl, fun _ _ => rfl⟩

theorem guarded_exact (he : ∀ x y b, e x y = .ok b → (b = true ↔ x = y)) : (guarded ok e d dI).ExactFor id (fun _ _ => False) (ringCoeff S) where
  zero := rfl
  one := rfl
  mone := rfl
  eq x y b h := by
    have := he x y b h
    show b = @decide (x = y) (Classical.propDecidable _)
    rw [Bool.eq_iff_iff]
    exact this.trans (@decide_eq_true_iff _ (Classical.propDecidable _)).symm
  uminus _ _ h := guardTo_inv h
  mul _ _ _ h := guardTo_inv h
  div _ _ _ _ h := h.elim
  addIn _ _ h := guardIn_inv h
  subIn _ _ h := guardIn_inv h
  mulIn _ _ h := guardIn_inv h
  divIn _ _ _ h := h.elim

theorem stmtRel_ring {s : PStmt S R} (ha : s.Algebraic) : ∃ s' : PStmt S Unit, StmtRel (Img id) (fun _ _ => False) s s' ∧ ∀ ρ : Nat → List Nat → S, s'.value ρ = s.value ρ := by
  cases s with
  | zero i => exact ⟨.zero i, .zero i, fun _ => rfl⟩
  | clear i => exact ⟨.clear i, .clear i, fun _ => rfl⟩
  | word i w s => exact ⟨.word i w s, .word _ _ _ _ rfl, fun _ => rfl⟩
  | terms i items => exact ⟨.terms i items, .terms _ _ _ (List.forall₂_same.2 fun e _ => ⟨rfl, rfl⟩), fun _ => rfl⟩
  | copy i j => exact ⟨.copy i j, .copy i j, fun _ => rfl⟩
  | swap i j => exact ⟨.swap i j, .swap i j, fun _ => rfl⟩
  | erase i w => exact ⟨.erase i w, .erase i w, fun _ => rfl⟩
  | neg i => exact ⟨.neg i, .neg i, fun _ => rfl⟩
  | add i j => exact ⟨.add i j, .add i j, fun _ => rfl⟩
  | sub i j => exact ⟨.sub i j, .sub i j, fun _ => rfl⟩
  | scale i s => exact ⟨.scale i s, .scale _ _ _ rfl, fun _ => rfl⟩
  | mul i j k D => exact ⟨.mul i j k D, .mul i j k D, fun _ => rfl⟩
  | comm i j k D => exact ⟨.comm i j k D, .comm i j k D, fun _ => rfl⟩
  | addMul i j k D => exact ⟨.addMul i j k D, .addMul i j k D, fun _ => rfl⟩
  | subMul i j k D => exact ⟨.subMul i j k D, .subMul i j k D, fun _ => rfl⟩
  | modify | div => exact ha.elim

theorem progRel_ring (prog : List (PStmt S R)) (ha : ∀ s ∈ prog, s.Algebraic) : ∃ prog' : List (PStmt S Unit),
    List.Forall₂ (StmtRel (Img id) (fun _ _ => False)) prog prog' ∧ ∀ ρ : Nat → List Nat → S, prog'.foldl PStmt.value ρ = prog.foldl PStmt.value ρ := by
  induction prog with
  | nil => exact ⟨[], .nil, fun _ => rfl⟩
  | cons s prog ih =>
    obtain ⟨s', h1, h2⟩ := stmtRel_ring (ha s (by simp))
    obtain ⟨prog', h3, h4⟩ := ih fun t ht => ha t (by simp [ht])
    exact ⟨s' :: prog', .cons h1 h3, fun ρ => by rw [List.foldl_cons, List.foldl_cons, h2, h4]⟩

/-- A program over guarded coefficients returns if and only if every number that it computes is in order; the registers then hold the exact coefficients. -/
theorem guarded_returns {F : FCoeff S R} (hF : F.Guards ok) (h0 : ok 0) (h2 : 2 ≤ N) (hN : N < 2 ^ 32) {D : Nat} (hm : D ≤ maxDepth N) (hp : N ^ (D + 1) < 2 ^ 64)
    (prog : List (PStmt S R)) (hs : ∀ s ∈ prog, s.Within N D ∧ s.Algebraic) (ha : allowedProg (fun _ => 0) prog = true) (hr : ∀ s ∈ prog, s.Scalars ok) :
    ((∃ σ, runProgF F p N prog = .ok σ) ↔ NumbersIn ok N D (fun _ _ => 0) prog) ∧
    ∀ σ, runProgF F p N prog = .ok σ → (∀ i, (σ i).size = geomSum N (prog.foldl PStmt.levels (fun _ => 0) i)) ∧
      ∀ i w, ValidWord N w → w.length ≤ maxDepth N → val N (σ i) w = valueProg prog i w := by
  have hvals : ∀ prog : List (PStmt S R), (∀ s ∈ prog, s.Within N D ∧ s.Algebraic) → ∀ σ, runProgF F p N prog = .ok σ → ∀ i w, ValidWord N w → w.length ≤ maxDepth N →
      val N (σ i) w = valueProg prog i w := by
    intro prog hs σ hσ i w hv hl
    obtain ⟨prog', h1, h3⟩ := progRel_ring prog fun s h => (hs s h).2
    have hk := fromLetters_ok p N (by omega) hN w hv hl
    have hX : F.ExactFor id (fun _ _ => False) (ringCoeff S) := by
      rw [hF.shape]
      exact guarded_exact hF.eq
    obtain ⟨x, x1, x2⟩ := C103_program_values p N ringCoeff_isRing hX h2 hN D hm hp prog hs prog' h1 σ hσ i w _ hv hl hk
    rw [get_word p N (by omega) hN (σ i) w hv hl _ hk] at x1
    cases x1
    unfold valueProg at x2 ⊢
    rw [h3, hF.zero] at x2
    exact x2
  have key : ∀ prog : List (PStmt S R), (∀ s ∈ prog, s.Within N D ∧ s.Algebraic) → allowedProg (fun _ => 0) prog = true → (∀ s ∈ prog, s.Scalars ok) →
      ((∃ σ, runProgF F p N prog = .ok σ) ↔ NumbersIn ok N D (fun _ _ => 0) prog) ∧
      ∀ σ, runProgF F p N prog = .ok σ → ShapeIs N σ (prog.foldl PStmt.levels fun _ => 0) ∧ ∀ i, prog.foldl PStmt.levels (fun _ => 0) i ≤ D + 1 := by
    intro prog
    induction prog using List.reverseRecOn with
    | nil =>
      intro _ _ _
      refine ⟨⟨fun _ => trivial, fun _ => ⟨_, rfl⟩⟩, fun σ hσ => ?_⟩
      cases hσ
      exact ⟨⟨fun _ => .new, emptyRegs, fun _ => Dense.new_rel, fun _ => Holds.empty (by simp [Dense.new, Dense.ofVec]) rfl, rfl⟩, fun _ => Nat.zero_le _⟩
    | append_singleton pre s ih =>
      intro hs ha hr
      rw [allowedProg_append, Bool.and_eq_true] at ha
      have hsp : ∀ t ∈ pre, t.Within N D ∧ t.Algebraic := fun t ht => hs t (by simp [ht])
      have hrp : ∀ t ∈ pre, t.Scalars ok := fun t ht => hr t (by simp [ht])
      have hs1 := hs s (by simp)
      have ha2 : s.allowed (pre.foldl PStmt.levels fun _ => 0) = true := (Bool.and_eq_true_iff.1 ha.2).1
      obtain ⟨i1, i2⟩ := ih hsp ha.1 hrp
      have hrun : runProgF F p N (pre ++ [s]) = runProgF F p N pre >>= fun σ => runStmtF F p N σ s := by
        unfold runProgF
        rw [List.foldlM_append]
        cases List.foldlM (runStmtF F p N) (fun _ => (.new : Dense S)) pre with
        | ok σ =>
          simp only [Res.bind_ok, List.foldlM_cons, List.foldlM_nil]
          cases runStmtF F p N σ s <;> rfl
        | _ => rfl
      rw [hrun, numbersIn_append]
      cases hpre : runProgF F p N pre with
      | ok σ =>
        obtain ⟨j1, j2⟩ := i2 σ hpre
        have hb := numbersIn_last N h0 pre _ (fun s h => ⟨(hsp s h).2, hrp s h⟩) (fun _ _ _ _ => h0) (i1.1 ⟨σ, hpre⟩)
        have hst := stmt_exact (e := F.eq) (d := F.div) (dI := F.divIn) p N h0 h2 hN hm hp s hs1.1 hs1.2 j1.size j2 ha2
          (fun i w hv hd => hvals pre hsp σ hpre i w hv (hd.trans hm)) hb
        rw [← hF.shape] at hst
        refine ⟨?_, fun σ' hσ' => ?_⟩
        · rw [Res.bind_ok, hst]
          exact ⟨fun h => ⟨i1.1 ⟨σ, hpre⟩, h⟩, fun h => h.2⟩
        · rw [Res.bind_ok] at hσ'
          rw [List.foldl_append]
          exact ⟨shape_step p h2 hN hm hp s hs1.1 j1 j2 hσ', levels_le (N := N) s hs1.1 _ j2⟩
      | _ =>
        refine ⟨⟨fun ⟨_, h⟩ => (nomatch h), fun h => ?_⟩, fun _ h => (nomatch h)⟩
        obtain ⟨σ, hσ⟩ := i1.2 h.1
        rw [hpre] at hσ
        cases hσ
  exact ⟨(key prog hs ha hr).1, fun σ hσ => ⟨((key prog hs ha hr).2 σ hσ).1.size, hvals prog hs σ hσ⟩⟩

end
end

end RA
