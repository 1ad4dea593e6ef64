import Verif.Props.Hall
import Verif.Props.Signature
import Verif.Proofs.LieDim

/-!
# What the dimensions of the Lie basis count (C92), and Lie elements as commutators (C93)
-/

namespace RA
open Spec TensorKey TensorBasis DenseAlg Hall

instance fintypeLyndonEq (N n : Nat) : Fintype (LyndonIn N (· = n)) :=
  Fintype.subtype (lyndonWords N n).toFinset fun w => by
    rw [List.mem_toFinset, mem_lyndonWords]
    tauto

theorem card_lyndonEq (N n : Nat) : Fintype.card (LyndonIn N (· = n)) = (lyndonWords N n).length := by
  rw [Fintype.card_of_subtype (lyndonWords N n).toFinset fun w => by
    rw [List.mem_toFinset, mem_lyndonWords]
    tauto, List.toFinset_card_of_nodup (nodup_lyndonWords N n)]

theorem mem_lyndonTo (N D : Nat) (w : List Nat) :
    w ∈ (Finset.Icc 1 D).biUnion (fun n => (lyndonWords N n).toFinset) ↔ Lyndon w ∧ ValidWord N w ∧ w.length ≤ D := by
  simp only [Finset.mem_biUnion, Finset.mem_Icc, List.mem_toFinset, mem_lyndonWords]
  constructor
  · rintro ⟨n, h, ⟨h1, h2⟩, h3⟩
    exact ⟨h3, h1, by omega⟩
  · rintro ⟨h1, h2, h3⟩
    exact ⟨w.length, ⟨List.length_pos_iff.2 h1.1, h3⟩, ⟨h2, rfl⟩, h1⟩

instance fintypeLyndonLe (N D : Nat) : Fintype (LyndonIn N (· ≤ D)) := Fintype.subtype _ (mem_lyndonTo N D)

theorem card_lyndonLe (N D : Nat) : Fintype.card (LyndonIn N (· ≤ D)) = ∑ n ∈ Finset.Icc 1 D, (lyndonWords N n).length := by
  rw [Fintype.card_of_subtype _ (mem_lyndonTo N D), Finset.card_biUnion]
  · exact Finset.sum_congr rfl fun n _ => List.toFinset_card_of_nodup (nodup_lyndonWords N n)
  · intro m _ n _ hmn
    rw [Function.onFun, Finset.disjoint_left]
    intro w h h'
    rw [List.mem_toFinset, mem_lyndonWords] at h h'
    exact hmn (h.1.2.symm.trans h'.1.2)

theorem witt_unique {w n x y : Nat} (hn : 1 ≤ n) (hx : IsWitt w n x) (hy : IsWitt w n y) : x = y := by
  unfold IsWitt at hx hy
  have h : ((n * x : Nat) : Int) = ((n * y : Nat) : Int) := by
    push_cast
    rw [hx, hy]
  exact Nat.eq_of_mul_eq_mul_left (by omega) (Int.ofNat_inj.1 h)

theorem value_not_valid {S : Type} [CommRing S] {N D : Nat} (e : TExpr S) (he : e.Words N D) : ∀ w, ¬ ValidWord N w → e.value w = 0 := by
  have hconv : ∀ a b : List Nat → S, (∀ w, ¬ ValidWord N w → a w = 0) → (∀ w, ¬ ValidWord N w → b w = 0) → ∀ w, ¬ ValidWord N w → conv a b w = 0 := by
    intro a b ha hb w hw
    rw [conv_eq_sum]
    apply List.sum_eq_zero
    intro y hy
    obtain ⟨k, _, rfl⟩ := List.mem_map.1 hy
    by_cases h : ValidWord N (w.take k)
    · rw [hb (w.drop k) fun h' => hw ?_, mul_zero]
      rw [← List.take_append_drop k w]
      intro l hl
      exact (List.mem_append.1 hl).elim (h l) (h' l)
    · rw [ha _ h, zero_mul]
  induction e with
  | term u s =>
    intro w hw
    exact if_neg fun h : w = u => hw (h ▸ he.1)
  | add a b ha hb => exact fun w hw => by simp only [TExpr.value, ha he.1 w hw, hb he.2 w hw, add_zero]
  | sub a b ha hb => exact fun w hw => by simp only [TExpr.value, ha he.1 w hw, hb he.2 w hw, sub_zero]
  | neg a ha => exact fun w hw => by simp only [TExpr.value, ha he w hw, neg_zero]
  | smul c a ha => exact fun w hw => by simp only [TExpr.value, ha he w hw, mul_zero]
  | mul a b ha hb => exact hconv _ _ (ha he.1) (hb he.2)
  | comm a b ha hb => exact fun w hw => by simp only [TExpr.value, hconv _ _ (ha he.1) (hb he.2) w hw, hconv _ _ (hb he.2) (ha he.1) w hw, sub_zero]

/-! ## C92 -/

/-- C92.  The space whose dimension is counted: the parts of degree at most `D` of everything made from letters with commutators, sums and scalar multiples. -/
theorem C92_space (S : Type) [Field S] [CharZero S] (N : Nat) (hN : 1 ≤ N) (D : Nat) (f : List Nat → S) :
    f ∈ lieSpace S N (· ≤ D) ↔ ∃ e : TExpr S, e.IsLie ∧ e.Words N 1 ∧ ∀ w, f w = if w.length ≤ D then e.value w else 0 := by
  constructor
  · intro hf
    obtain ⟨e, e1, e2, e3⟩ := exists_lie_expr N hN (· ≤ D) f hf
    refine ⟨e, e1, e2, fun w => ?_⟩
    split_ifs with h
    · rw [e3]
    · exact hf.1 w fun hc => h hc.2
  · rintro ⟨e, e1, e2, hf⟩
    obtain ⟨p1, p2⟩ := primitive_value e e1
    refine ⟨fun w hw => ?_, by rw [hf]; simp [p1], fun u v hu hv => ?_⟩
    · rw [hf]
      split_ifs with h
      · exact value_not_valid e e2 w fun hv => hw ⟨hv, h⟩
      · rfl
    · by_cases h : u.length + v.length ≤ D
      · rw [← p2 u v hu hv]
        unfold sh
        congr 1
        refine List.map_congr_left fun w hw => ?_
        rw [hf, if_pos (by rw [shuffles_length u v w hw]; exact h)]
      · apply List.sum_eq_zero
        intro y hy
        obtain ⟨w, hw, rfl⟩ := List.mem_map.1 hy
        rw [hf, if_neg (by rw [shuffles_length u v w hw]; exact h)]

/-- `[e_1, [e_1, 3 e_2]] - e_2` up to degree four. -/
example := (C92_space ℚ 2 (by omega) 4 _).2 ⟨.sub (.comm (.term [1] 1) (.comm (.term [1] 1) (.term [2] 3))) (.term [2] 1), by simp [TExpr.IsLie],
  ⟨⟨⟨by decide, by decide⟩, ⟨by decide, by decide⟩, by decide, by decide⟩, by decide, by decide⟩, fun _ => rfl⟩
/-- The product `e_1 e_2` is not in the space. -/
example : (fun w => if w = [1, 2] then 1 else 0) ∉ lieSpace ℚ 2 (· ≤ 4) := fun h => by
  have := h.2.2 [1] [2] (by simp) (by simp)
  simp [shuffles] at this

/-- C92.  Whatever `hall_set_level_size` returns is the number of Lyndon words and the dimension of the space of Lie elements of that degree. -/
theorem C92_level (S : Type) [Field S] [CharZero S] (p : Profile) (w n v : Nat) (h1 : 1 ≤ n) (hn : n < 2 ^ 32) (hfit : w ^ n < 2 ^ 63) (h : levelSize p w n = .ok v) :
    v = (lyndonWords w n).length ∧ v = Module.finrank S (lieSpace S w (· = n)) := by
  have key : v = (lyndonWords w n).length := by
    by_cases hpp : n = 1 ∨ IsPrimePow n
    · obtain ⟨x, e, hx⟩ := C43_level_partial p w n hn hpp hfit
      cases e.symm.trans h
      exact witt_unique h1 hx (lyndon_isWitt w n h1)
    · rw [not_or] at hpp
      rw [C43_level_diverges p w n (by omega) hn hpp.2 hfit] at h
      cases h
  exact ⟨key, by rw [(finrank_lie S w (· = n)).1, card_lyndonEq, ← key]⟩

/-- C92.  It does return for degree one and for every prime power. -/
theorem C92_level_returns (S : Type) [Field S] [CharZero S] (p : Profile) (w n : Nat) (hn : n < 2 ^ 32) (h : n = 1 ∨ IsPrimePow n) (hfit : w ^ n < 2 ^ 63) :
    levelSize p w n = .ok (Module.finrank S (lieSpace S w (· = n))) := by
  obtain ⟨x, e, _⟩ := C43_level_partial p w n hn h hfit
  have h1 : 1 ≤ n := by
    rcases h with rfl | h
    · exact le_rfl
    · exact h.pos
  rw [e, (C92_level S p w n x h1 hn hfit e).2]

/-- C92.  Whatever `hall_set_size` returns is the number of Lyndon words of length at most the depth, and the dimension of the space of Lie elements of degree at
most the depth. -/
theorem C92_size (S : Type) [Field S] [CharZero S] (p : Profile) (w d v : Nat) (hfit : w ^ d < 2 ^ 63) (h : hallSetSize p w d = .ok v) :
    v = ∑ n ∈ Finset.Icc 1 d, (lyndonWords w n).length ∧ v = Module.finrank S (lieSpace S w (· ≤ d)) := by
  have key : v = ∑ n ∈ Finset.Icc 1 d, (lyndonWords w n).length := by
    by_cases h5 : d ≤ 5
    · obtain ⟨W, hW, e⟩ := C43_hall_set_size_partial p w d h5 hfit
      cases e.symm.trans h
      refine Finset.sum_congr rfl fun n hn => ?_
      rw [Finset.mem_Icc] at hn
      exact witt_unique hn.1 (hW n hn.1 hn.2) (lyndon_isWitt w n hn.1)
    · exact absurd h (C43_hall_set_size_never_returns p w d v (lt_of_le_of_lt (Nat.le_self_pow (by omega) w) hfit) (by omega))
  exact ⟨key, by rw [(finrank_lie S w (· ≤ d)).1, card_lyndonLe, ← key]⟩

/-- C92.  It does return up to depth five. -/
theorem C92_size_returns (S : Type) [Field S] [CharZero S] (p : Profile) (w d : Nat) (h5 : d ≤ 5) (hfit : w ^ d < 2 ^ 63) :
    hallSetSize p w d = .ok (Module.finrank S (lieSpace S w (· ≤ d))) := by
  obtain ⟨W, _, e⟩ := C43_hall_set_size_partial p w d h5 hfit
  rw [e, (C92_size S p w d _ hfit e).2]

/-- C92.  The entries of a degree range map are the dimensions of the spaces of Lie elements, so the keys of degree `d + 1` begin after as many keys as there are
independent Lie elements of degree at most `d`. -/
theorem C92_range_map (S : Type) [Field S] [CharZero S] (p : Profile) (N n : Nat) (gs : List Nat) (m : RangeMap) (h : mapAfter p N n gs = .ok m) (d : Nat)
    (hd : d < covered n gs) (hfit : N ^ d < 2 ^ 63) : RangeMap.get m d = .ok (Module.finrank S (lieSpace S N (· ≤ d))) := by
  obtain ⟨v, h1, h2⟩ := (C44_get p N n gs m h d).1 hd
  rw [h2, (C92_size S p N d v hfit h1).2]

/-- The eight independent Lie elements of degree at most four over two letters... -/
example (p : Profile) : hallSetSize p 2 4 = .ok (Module.finrank ℚ (lieSpace ℚ 2 (· ≤ 4))) := C92_size_returns ℚ p 2 4 (by omega) (by norm_num)
/-- ...are the brackets of these words. -/
example : lyndonWords 2 1 ++ lyndonWords 2 2 ++ lyndonWords 2 3 ++ lyndonWords 2 4 =
    [[1], [2], [1, 2], [1, 1, 2], [1, 2, 2], [1, 1, 1, 2], [1, 1, 2, 2], [1, 2, 2, 2]] := by decide +kernel
example (p : Profile) : levelSize p 3 8 = .ok (Module.finrank ℚ (lieSpace ℚ 3 (· = 8))) :=
  C92_level_returns ℚ p 3 8 (by omega) (.inr ⟨2, 3, Nat.prime_two.prime, by omega, rfl⟩) (by norm_num)

/-! ## C93 -/

theorem words_mono {S : Type} {N D D' : Nat} (h : D ≤ D') (e : TExpr S) (he : e.Words N D) : e.Words N D' := by
  induction e with
  | term w s => exact ⟨he.1, he.2.trans h⟩
  | add a b ha hb | sub a b ha hb | mul a b ha hb | comm a b ha hb => exact ⟨ha he.1, hb he.2⟩
  | neg a ha | smul s a ha => exact ha he

section
variable {S R : Type} (C : Coeff S R) (p : Profile) (N : Nat) [Field S] [CharZero S]

/-- C93.  Lie elements are made from letters by commutators: for a tensor that satisfies Ree's criterion up to degree `D` there is an expression in letters,
commutators, sums and scalar multiples whose evaluation with the dense tensor operations returns the same coefficients up to degree `D`. -/
theorem C93_ree (hC : C.IsRing) (h2 : 2 ≤ N) (hN : N < 2 ^ 32) (D : Nat) (hD : 1 ≤ D) (hm : D ≤ maxDepth N) (hp : N ^ (D + 1) < 2 ^ 64) (x : Dense S)
    (hx : IsLieVec C N D x) :
    ∃ e : TExpr S, e.IsLie ∧ e.Words N D ∧ ∃ r, runExpr C p N D e = .ok r ∧ ∀ w, ValidWord N w → w.length ≤ D → coef C N r w = coef C N x w := by
  classical
  obtain ⟨x1, x2⟩ := hx
  have hf : (fun w => if ValidWord N w ∧ w.length ≤ D then coef C N x w else 0) ∈ lieSpace S N (· ≤ D) := by
    refine ⟨fun w hw => if_neg hw, ?_, fun u v hu hv => ?_⟩
    · exact (if_pos ⟨fun l hl => by simp at hl, by simp⟩).trans x1
    · by_cases h : (ValidWord N u ∧ ValidWord N v) ∧ u.length + v.length ≤ D
      · rw [← x2 u v h.1.1 h.1.2 hu hv h.2]
        congr 1
        refine List.map_congr_left fun w hw => if_pos ⟨fun l hl => (shuffles_mem u v w hw l hl).elim (h.1.1 l) (h.1.2 l), ?_⟩
        rw [shuffles_length u v w hw]
        exact h.2
      · apply List.sum_eq_zero
        intro y hy
        obtain ⟨w, hw, rfl⟩ := List.mem_map.1 hy
        refine if_neg fun hc => h ⟨⟨fun l hl => hc.1 l (shuffles_mem' u v w hw l (.inl hl)), fun l hl => hc.1 l (shuffles_mem' u v w hw l (.inr hl))⟩, ?_⟩
        rw [← shuffles_length u v w hw]
        exact hc.2
  obtain ⟨e, e1, e2, e3⟩ := exists_lie_expr N (by omega) (· ≤ D) _ hf
  have ew := words_mono hD e e2
  obtain ⟨r, er, _, hr⟩ := C53_expressions_partial C p N hC h2 hN D hD hm hp e ew (noConst_of_nonempty hD e (lie_nonempty e e1))
  refine ⟨e, e1, ew, r, er, fun w hw hl => ?_⟩
  rw [hr w hw, if_pos hl, e3]
  exact if_pos ⟨hw, hl⟩

/-- C93.  With C71: up to degree `D` the Lie elements are exactly the tensors made from letters by commutators. -/
theorem C93_iff (hC : C.IsRing) (h2 : 2 ≤ N) (hN : N < 2 ^ 32) (D : Nat) (hD : 1 ≤ D) (hm : D ≤ maxDepth N) (hp : N ^ (D + 1) < 2 ^ 64) (x : Dense S) :
    IsLieVec C N D x ↔ ∃ e : TExpr S, e.IsLie ∧ e.Words N D ∧ ∃ r, runExpr C p N D e = .ok r ∧ ∀ w, ValidWord N w → w.length ≤ D → coef C N r w = coef C N x w := by
  refine ⟨C93_ree C p N hC h2 hN D hD hm hp x, ?_⟩
  rintro ⟨e, e1, e2, r, er, hr⟩
  obtain ⟨r', er', h0, hs⟩ := C71_lie C p N hC h2 hN D hD hm hp e e2 e1
  cases er.symm.trans er'
  refine ⟨by rw [← hr [] (fun l hl => by simp at hl) (by simp)]; exact h0, fun u v hu hv hu0 hv0 hl => ?_⟩
  rw [← hs u v hu hv hu0 hv0]
  congr 1
  refine List.map_congr_left fun w hw => (hr w (fun l hl => (shuffles_mem u v w hw l hl).elim (hu l) (hv l)) ?_).symm
  rw [shuffles_length u v w hw]
  exact hl

/-- C93, Baker-Campbell-Hausdorff and Chen: the logarithm of the signature of any path is given by commutators of letters. -/
theorem C93_log_signature (C : Coeff S S) (hC : C.IsField) (h2 : 2 ≤ N) (hN : N < 2 ^ 32) (D : Nat) (hD : 1 ≤ D) (hm : D ≤ maxDepth N) (hp : N ^ (D + 1) < 2 ^ 64) (g : Dense S) (d : Nat)
    (hd : 1 ≤ d) (hg : FullTo N g d) (hs : IsGroupLike C N D g) :
    ∃ l, tensorLog C p N D g = .ok l ∧ ∃ e : TExpr S, e.IsLie ∧ e.Words N D ∧ ∃ r, runExpr C p N D e = .ok r ∧
      ∀ w, ValidWord N w → w.length ≤ D → coef C N r w = coef C N l w := by
  obtain ⟨l, el, hl⟩ := C88_log C p N hC h2 hN D hD hp g d hd hg hs
  exact ⟨l, el, C93_ree C p N hC.toIsRing h2 hN D hD hm hp l hl⟩

end

example := C93_ree (fieldCoeff Rat) .debug 2 (fieldCoeff_isField Rat).toIsRing (by omega) (by omega) 4 (by omega) (by decide +kernel) (by decide) (Dense.ofVec [0, 2, 3])
  (path_lie 4 _ (by simp [path]))
example := C93_iff (fieldCoeff Rat) .debug 2 (fieldCoeff_isField Rat).toIsRing (by omega) (by omega) 4 (by omega) (by decide +kernel) (by decide) (Dense.ofVec [0, 2, 3])
example := C93_log_signature .debug 2 (fieldCoeff Rat) (fieldCoeff_isField Rat) (by omega) (by omega) 2 (by omega) (by decide +kernel) (by decide)
  (Dense.ofVec [1, 1, 0, 1 / 2, 0, 0, 0]) 2 (by omega) ⟨rfl, by decide⟩ exp_letter

end RA
