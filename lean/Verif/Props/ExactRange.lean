import Verif.Props.ExactSteps

/-!
# Exactly when programs over checked integers return (C105)
-/

namespace RA
open Spec TensorKey TensorBasis Fallible DenseAlg

theorem inRange_guard (lo hi x : Int) : inRange lo hi x = guardTo (Between lo hi) x := by
  unfold inRange guardTo Between
  split_ifs <;> rfl

theorem inRangeIn_guard (lo hi o x : Int) : inRangeIn lo hi o x = guardIn (Between lo hi) o x := by
  unfold inRangeIn guardIn Between
  split_ifs <;> rfl

theorem rangeInt_guards (lo hi : Int) : (rangeInt lo hi).Guards (Between lo hi) where
  zero := rfl
  one := rfl
  mone := rfl
  eq := by rintro x y _ ⟨⟩; exact decide_eq_true_iff
  uminus _ := inRange_guard ..
  mul _ _ := inRange_guard ..
  addIn _ _ := inRangeIn_guard ..
  subIn _ _ := inRangeIn_guard ..
  mulIn _ _ := inRangeIn_guard ..

section
variable (p : Profile) (N : Nat)

/-- C105.  A program over checked integers returns if and only if every number that it computes lies in the range: sums, differences, multiples and negatives of coefficients,
each product of two coefficients and each partial sum on the way to a coefficient of a product, longest left factor first; otherwise it panics. -/
theorem C105_exact_signed {lo hi : Int} (hlo : lo ≤ -1) (hhi : 1 ≤ hi) (h2 : 2 ≤ N) (hN : N < 2 ^ 32) (D : Nat) (hm : D ≤ maxDepth N) (hp : N ^ (D + 1) < 2 ^ 64)
    (prog : List (PStmt Int Int)) (hs : ∀ s ∈ prog, s.Within N D ∧ s.Algebraic) (ha : allowedProg (fun _ => 0) prog = true)
    (hr : ∀ s ∈ prog, s.Scalars fun x => lo ≤ x ∧ x ≤ hi) :
    ((∃ σ, runProgF (rangeInt lo hi) p N prog = .ok σ) ↔ NumbersIn (Between lo hi) N D (fun _ _ => 0) prog) ∧
    (runProgF (rangeInt lo hi) p N prog = .panic ↔ ¬ NumbersIn (Between lo hi) N D (fun _ _ => 0) prog) := by
  have h0 : Between lo hi 0 := ⟨by omega, by omega⟩
  suffices h : (∃ σ, runProgF (rangeInt lo hi) p N prog = .ok σ) ↔ NumbersIn (Between lo hi) N D (fun _ _ => 0) prog by
    refine ⟨h, ?_⟩
    rw [← h]
    obtain ⟨h3, h4⟩ := (C105_returns_or_panics p N (C103_only_panics lo hi).1 h2 hN D hm hp prog fun s h => (hs s h).1).1 ha
    rcases hr : runProgF (rangeInt lo hi) p N prog with r | _ | _ | _
    · exact ⟨nofun, fun h => (h ⟨r, rfl⟩).elim⟩
    · exact ⟨fun _ => nofun, fun _ => rfl⟩
    · exact (h3 hr).elim
    · exact (h4 hr).elim
  exact (guarded_returns p N (rangeInt_guards lo hi) h0 h2 hN hm hp prog hs ha hr).1

/-- C105.  For programs without products, in particular, it returns if and only if the coefficients of the elements that it describes stay in the range. -/
theorem C105_exact_linear {lo hi : Int} (hlo : lo ≤ -1) (hhi : 1 ≤ hi) (h2 : 2 ≤ N) (hN : N < 2 ^ 32) (D : Nat) (hm : D ≤ maxDepth N) (hp : N ^ (D + 1) < 2 ^ 64)
    (prog : List (PStmt Int Int)) (hs : ∀ s ∈ prog, s.Within N D ∧ s.Linear) (hr : ∀ s ∈ prog, s.Scalars fun x => lo ≤ x ∧ x ≤ hi) :
    ((∃ σ, runProgF (rangeInt lo hi) p N prog = .ok σ) ↔ ValuesIn N D lo hi (fun _ _ => 0) prog) ∧
    (runProgF (rangeInt lo hi) p N prog = .panic ↔ ¬ ValuesIn N D lo hi (fun _ _ => 0) prog) := by
  have h0 : Between lo hi 0 := ⟨by omega, by omega⟩
  have hal : ∀ s ∈ prog, s.Within N D ∧ s.Algebraic := fun s h => ⟨(hs s h).1, by
    have := (hs s h).2
    cases s <;> trivial⟩
  have ha : ∀ (prog : List (PStmt Int Int)), (∀ s ∈ prog, s.Within N D ∧ s.Linear) → ∀ l, allowedProg l prog = true := by
    intro prog
    induction prog with
    | nil => exact fun _ _ => rfl
    | cons s prog ih =>
      intro hs l
      refine Bool.and_eq_true_iff.2 ⟨?_, ih (fun t ht => hs t (by simp [ht])) _⟩
      have := (hs s (by simp)).2
      cases s <;> first | rfl | exact this.elim
  have hiff : ∀ (prog : List (PStmt Int Int)) (ρ : Nat → List Nat → Int), (∀ s ∈ prog, s.Within N D ∧ s.Linear) → (∀ s ∈ prog, s.Scalars fun x => lo ≤ x ∧ x ≤ hi) →
      (∀ i w, ValidWord N w → w.length ≤ D → Between lo hi (ρ i w)) → (NumbersIn (Between lo hi) N D ρ prog ↔ ValuesIn N D lo hi ρ prog) := by
    intro prog
    induction prog with
    | nil => exact fun _ _ _ _ => Iff.rfl
    | cons s prog ih =>
      intro ρ hs hr hρ
      have h1 : (∀ w, ValidWord N w → w.length ≤ D → s.NumbersIn (Between lo hi) ρ w) ↔ ∀ i w, ValidWord N w → w.length ≤ D → Between lo hi (s.value ρ i w) := by
        have hset : ∀ {ρ : Nat → List Nat → Int} {i : Nat} {f : List Nat → Int}, (∀ i w, ValidWord N w → w.length ≤ D → Between lo hi (ρ i w)) →
            ((∀ w, ValidWord N w → w.length ≤ D → Between lo hi (f w)) ↔ ∀ j w, ValidWord N w → w.length ≤ D → Between lo hi (setReg ρ i f j w)) := by
          intro ρ i f hρ
          refine ⟨fun h j => ?_, fun h => ?_⟩
          · unfold setReg
            split_ifs
            exacts [h, hρ j]
          · have := h i
            unfold setReg at this
            rwa [if_pos rfl] at this
        have hset' : ∀ {i : Nat} {f : List Nat → Int} {Q : List Nat → Prop}, (∀ w, Q w) → (∀ w, ValidWord N w → w.length ≤ D → Between lo hi (f w)) →
            ((∀ w, ValidWord N w → w.length ≤ D → Q w) ↔ ∀ j w, ValidWord N w → w.length ≤ D → Between lo hi (setReg ρ i f j w)) :=
          fun hq hf => ⟨fun _ => (hset hρ).1 hf, fun _ w _ _ => hq w⟩
        have hlin := (hs s (by simp)).2
        have hsc := hr s (by simp)
        cases s with
        | zero i | clear i => exact hset' (fun _ => trivial) fun _ _ _ => h0
        | word i w s => exact hset' (fun _ => trivial) fun u _ _ => by split_ifs; exacts [hsc, h0]
        | copy i j => exact hset' (fun _ => trivial) (hρ j)
        | swap i j => exact ⟨fun _ => (hset ((hset hρ).1 (hρ j))).1 (hρ i), fun _ _ _ _ => trivial⟩
        | erase i w => exact hset' (fun _ => trivial) fun u hv hd => by split_ifs; exacts [h0, hρ i u hv hd]
        | neg i => exact hset hρ
        | add i j => exact hset hρ
        | sub i j => exact hset hρ
        | scale i s => exact hset hρ
        | _ => exact hlin.elim
      unfold NumbersIn ValuesIn
      exact ⟨fun h => ⟨h1.1 h.1, (ih _ (fun t ht => hs t (by simp [ht])) (fun t ht => hr t (by simp [ht])) (h1.1 h.1)).1 h.2⟩,
        fun h => ⟨h1.2 h.1, (ih _ (fun t ht => hs t (by simp [ht])) (fun t ht => hr t (by simp [ht])) h.1).2 h.2⟩⟩
  rw [← hiff prog _ hs hr fun _ _ _ _ => h0]
  exact C105_exact_signed p N hlo hhi h2 hN D hm hp prog hal (ha prog hs _) hr

end

/-! ## Examples -/

instance sumsInDecidable {S : Type} [CommRing S] (ok : S → Prop) [DecidablePred ok] : (x : S) → (l : List S) → Decidable (SumsIn ok x l)
  | _, [] => .isTrue trivial
  | x, t :: l => @instDecidableAnd _ _ _ (sumsInDecidable ok (x + t) l)

instance {S : Type} [CommRing S] (ok : S → Prop) [DecidablePred ok] (ε x : S) (f g : List Nat → S) (w : List Nat) : Decidable (ProdIn ok ε x f g w) :=
  inferInstanceAs (Decidable (_ ∧ _))

instance (lo hi : Int) : DecidablePred (Between lo hi) := fun _ => inferInstanceAs (Decidable (_ ∧ _))

/-- `x = 1 + 10 a`, `y = 2 - 20 a`, `z = x y` up to degree 1.  The coefficient of `a` in `z` is `10 * 2 - 1 * 20 = 0`. -/
def passProg : List (PStmt Int Int) := [.terms 0 [([], 1), ([1], 10)], .terms 1 [([], 2), ([1], -20)], .mul 2 0 1 1]

theorem passProg_ok : (∀ s ∈ passProg, s.Within 2 1 ∧ s.Algebraic) ∧ allowedProg (fun _ => 0) passProg = true ∧ ∀ lo hi : Int, lo ≤ -20 → 10 ≤ hi →
    ∀ s ∈ passProg, s.Scalars fun x => lo ≤ x ∧ x ≤ hi := by
  refine ⟨fun s h => ?_, by decide, fun lo hi h1 h2 s h => ?_⟩ <;> simp only [passProg, List.mem_cons, List.not_mem_nil, or_false] at h
  · rcases h with rfl | rfl | rfl
    · exact ⟨by simp [PStmt.Within, ValidWord], trivial⟩
    · exact ⟨by simp [PStmt.Within, ValidWord], trivial⟩
    · exact ⟨le_rfl, trivial⟩
  · rcases h with rfl | rfl | rfl
    · simp only [PStmt.Scalars, List.mem_cons, List.not_mem_nil, or_false, forall_eq_or_imp, forall_eq]; omega
    · simp only [PStmt.Scalars, List.mem_cons, List.not_mem_nil, or_false, forall_eq_or_imp, forall_eq]; omega
    · trivial

/-- In the integers from -20 to 19 it panics, since the term 20 does not fit, although all coefficients of the results do. -/
example (p : Profile) : runProgF (rangeInt (-20) 19) p 2 passProg = .panic :=
  (C105_exact_signed p 2 (by omega) (by omega) (by omega) (by omega) 1 (by decide +kernel) (by decide) passProg passProg_ok.1 passProg_ok.2.1
    (passProg_ok.2.2 _ _ (by omega) (by omega))).2.2 fun h => absurd (h.2.2.1 [1] (by decide) (by decide) (by decide)) (by decide +kernel)

theorem short_words {Q : List Nat → Prop} (h0 : Q []) (h1 : Q [1]) (h2 : Q [2]) : ∀ w, ValidWord 2 w → w.length ≤ 1 → Q w := by
  intro w hv hd
  match w, hv, hd with
  | [], _, _ => exact h0
  | [c], hv, _ =>
    have := hv c (by simp)
    obtain rfl | rfl : c = 1 ∨ c = 2 := by omega
    exacts [h1, h2]

example : ValuesIn 2 1 (-20) 19 (fun _ _ => 0) passProg := by
  have h : ∀ {ρ : Nat → List Nat → Int}, (∀ w, ValidWord 2 w → w.length ≤ 1 → ∀ i, (-20 : Int) ≤ ρ i w ∧ ρ i w ≤ 19) → ∀ i w, ValidWord 2 w → w.length ≤ 1 → -20 ≤ ρ i w ∧ ρ i w ≤ 19 :=
    fun h i w hv hd => h w hv hd i
  refine ⟨h (short_words ?_ ?_ ?_), h (short_words ?_ ?_ ?_), h (short_words ?_ ?_ ?_), trivial⟩ <;> intro i <;>
    rcases i with _ | _ | _ | i <;> first | decide +kernel | exact (by decide : (-20 : Int) ≤ 0 ∧ (0 : Int) ≤ 19)

/-- In the integers from -20 to 20 it returns. -/
example (p : Profile) : ∃ σ, runProgF (rangeInt (-20) 20) p 2 passProg = .ok σ := by
  refine (C105_exact_signed p 2 (by omega) (by omega) (by omega) (by omega) 1 (by decide +kernel) (by decide) passProg passProg_ok.1 passProg_ok.2.1
    (passProg_ok.2.2 _ _ (by omega) (by omega))).1.2 ⟨short_words ?_ ?_ ?_, short_words ?_ ?_ ?_, short_words (fun _ => ?_) (fun _ => ?_) fun _ => ?_, trivial⟩
  · exact (by decide +kernel : SumsIn (Between (-20) 20) 0 [1])
  · exact (by decide +kernel : SumsIn (Between (-20) 20) 0 [10])
  · exact trivial
  · exact (by decide +kernel : SumsIn (Between (-20) 20) 0 [2])
  · exact (by decide +kernel : SumsIn (Between (-20) 20) 0 [-20])
  · exact trivial
  all_goals decide +kernel

/-- `x = -128 a`, `x = -x` in the integers from -128 to 127. -/
example (p : Profile) : runProgF (rangeInt (-128) 127) p 2 [.word 0 [1] (-128), .neg 0] = .panic := by
  refine (C105_exact_linear p 2 (by omega) (by omega) (by omega) (by omega) 1 (by decide +kernel) (by decide) _ (fun s h => ?_) fun s h => ?_).2.2
    fun h => absurd (h.2.1 0 [1] (by decide) (by decide)).2 (by decide +kernel) <;> simp only [List.mem_cons, List.not_mem_nil, or_false] at h
  · rcases h with rfl | rfl
    · exact ⟨⟨by decide, by decide⟩, trivial⟩
    · exact ⟨trivial, trivial⟩
  · rcases h with rfl | rfl
    · exact ⟨by decide, by decide⟩
    · trivial

end RA
