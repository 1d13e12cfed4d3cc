import Verif.Model.SteinSolver
import Verif.Props.Stein
import Verif.Props.SteinKernel

/-!
# C54: what Stein thinning does with kernels that are not Stein kernels
-/

set_option linter.unusedSectionVars false

namespace Coreax

open Greedy Spec

variable {d n m : ℕ} [NeZero n]

/-- The conversion gives a Stein kernel, with the given score function if there is one. -/
theorem C54_always_stein (big : ℝ) (x : Fin n → Vec d) (kernel : KExpr d) (sm : Option (Vec d → Vec d)) {K : KExpr d}
    (h : convertStein big x kernel sm = .ok K) : (∃ base s, K = .stein base s) ∧ ∀ s, sm = some s → K.scoreFunction = s := by
  unfold convertStein at h
  split at h
  · cases h; exact ⟨⟨_, _, rfl⟩, fun s hs => by cases hs; rfl⟩
  · cases h; exact ⟨⟨_, _, rfl⟩, fun s hs => by cases hs⟩
  · cases h; exact ⟨⟨_, _, rfl⟩, fun s hs => by cases hs; rfl⟩
  · split at h
    · cases h
    · cases h; exact ⟨⟨_, _, rfl⟩, fun s hs => by cases hs⟩

theorem convertStein_some (big : ℝ) (x : Fin n → Vec d) (kernel : KExpr d) (s : Vec d → Vec d) :
    ∃ base, convertStein big x kernel (some s) = .ok (.stein base s) := by
  cases kernel <;> exact ⟨_, rfl⟩

/-- Without regularisation the score function has no effect at all: the result is that of the greedy minimisation with the kernel that was
passed, even if that is a Stein kernel with a different score function. -/
theorem C54_score_ignored (big : ℝ) (kernel : KExpr d) (s : Vec d → Vec d) (unique : Bool) (o : SteinOptions n) (ho : o.regularise = false)
    (bs : PyTree (Option ℤ)) (size : ℕ) (pre : Data n (Vec d) ℝ) :
    (∀ (c : Data m ℤ ℝ) (ord : List (Fin (m + (size - m)))), steinThinningRefine big kernel (some s) unique o bs size pre c ord =
      steinRefine big kernel.sem.compute unique bs size pre c none ord) ∧
    ∀ ord, steinThinningReduce big kernel (some s) unique o bs size pre ord = steinReduce big kernel.sem.compute unique bs size pre none ord := by
  have h : ∀ (m : ℕ) (c : Data m ℤ ℝ) (ord : List (Fin (m + (size - m)))), steinThinningRefine big kernel (some s) unique o bs size pre c ord =
      steinRefine big kernel.sem.compute unique bs size pre c none ord := by
    intro m c ord
    obtain ⟨base, hb⟩ := convertStein_some big pre.data kernel s
    simp [steinThinningRefine, hb, steinRegularisation, ho]
  refine ⟨h m, fun ord => ?_⟩
  unfold steinThinningReduce steinReduce
  simp only [h]
  cases (initialCoresubset 0 size n : Except Err (Data size ℤ ℝ)) <;> rfl

/-- With regularisation the score function enters through the positive parts of its derivatives only: two score functions for which these agree on
the data (all decreasing ones, for instance) give the same coreset. -/
theorem C54_score_laplace_only (big : ℝ) (kernel : KExpr d) (s s' : Vec d → Vec d) (unique : Bool) (o : SteinOptions n)
    (bs : PyTree (Option ℤ)) (size : ℕ) (pre : Data n (Vec d) ℝ)
    (hs : ∀ j, laplacePositive s (pre.data j) = laplacePositive s' (pre.data j)) (ord : List (Fin (size + (size - size)))) :
    steinThinningReduce big kernel (some s) unique o bs size pre ord = steinThinningReduce big kernel (some s') unique o bs size pre ord := by
  unfold steinThinningReduce steinThinningRefine
  obtain ⟨base, hb⟩ := convertStein_some big pre.data kernel s
  obtain ⟨base', hb'⟩ := convertStein_some big pre.data kernel s'
  simp only [hb, hb', steinRegularisation, KExpr.scoreFunction, hs]

/-- Scores of normal distributions of any variances on the line all have the same (zero) Laplace terms. -/
example (v : ℝ) (hv : 0 ≤ v) (x : Vec 1) : laplacePositive (fun y : Vec 1 => fun i => -v * y i) x = 0 := by
  have h : deriv (fun t : ℝ => -v * t) (x 0) = -v := by
    simp
  simp only [laplacePositive, Fin.sum_univ_one, Function.update_self, h]
  exact max_eq_right (by linarith)

/-! ### Kernels with constant diagonal -/

section
variable {X K : Type*} [Zero X] [Field K] [LinearOrder K] [IsStrictOrderedRing K]

/-- With a kernel that is constant on the diagonal and no regularisation the first point is the first positively weighted row, whatever the data. -/
theorem C54_first_row (big : K) (k : X → X → K) (D : K) (unique : Bool) (bs : PyTree (Option ℤ)) (hbs : ValidBlock bs)
    (size : ℕ) (hsize : 0 < size) (pre : Data n X K) (hdiag : ∀ j, k (pre.data j) (pre.data j) = D)
    (ord : List (Fin (size + (size - size)))) (hord : ∀ t, t ∈ ord) (hpos : PosCount pre.weights size) :
    ∃ f : Fin size → Fin n, steinReduce big k unique bs size pre none ord = .ok ⟨fun t => (f t : ℤ), fun _ => 1⟩ ∧
      0 < pre.weights (f ⟨0, hsize⟩) ∧ ∀ j, 0 < pre.weights j → f ⟨0, hsize⟩ ≤ j := by
  obtain ⟨f, h1, h2, -⟩ := C15_reduce_greedy big k unique bs hbs size hsize pre none ord hord hpos
  refine ⟨f, h1, (h2 ⟨0, hsize⟩).1.1, fun j hj => ?_⟩
  by_contra hlt
  have hno : ∀ t : Fin size, ¬ t < ⟨0, hsize⟩ := fun t ht => by
    rw [Fin.lt_def] at ht; exact absurd ht (Nat.not_lt_zero _)
  have h := ((h2 ⟨0, hsize⟩).2 j ⟨hj, fun _ t ht => absurd ht (hno t)⟩).2 (not_le.1 hlt)
  simp [hdiag, hno, regLap, regLogp] at h

/-- Repeated rows change nothing if points may repeat: rows appended that are copies of positively weighted rows are ignored, so the result does not
depend on how often values occur. -/
theorem C54_multiplicity {p : ℕ} [NeZero (n + p)] (big : K) (k : X → X → K) (bs bs' : PyTree (Option ℤ)) (hbs : ValidBlock bs)
    (hbs' : ValidBlock bs') (size : ℕ) (hsize : 0 < size) (pre : Data n X K) (z : Fin p → X) (v : Fin p → K)
    (hz : ∀ i, ∃ j, 0 < pre.weights j ∧ pre.data j = z i)
    (ord ord' : List (Fin (size + (size - size)))) (hord : ∀ t, t ∈ ord) (hord' : ∀ t, t ∈ ord') (hpos : PosCount pre.weights size) :
    ∃ f : Fin size → Fin n,
      steinReduce big k false bs size pre none ord = .ok ⟨fun t => (f t : ℤ), fun _ => 1⟩ ∧
      steinReduce big k false bs' size (⟨Fin.append pre.data z, Fin.append pre.weights v⟩ : Data (n + p) X K) none ord'
        = .ok ⟨fun t => (f t : ℤ), fun _ => 1⟩ := by
  have hpos' : PosCount (Fin.append pre.weights v) size := by
    unfold PosCount at *
    refine hpos.trans (Finset.card_le_card_of_injOn (Fin.castAdd p) ?_ (Fin.castAdd_injective n p).injOn)
    intro j hj
    simpa using hj
  obtain ⟨f, hf, hrun, -⟩ := C15_reduce_greedy big k false bs hbs size hsize pre none ord hord hpos
  obtain ⟨F, hF, hrun', -⟩ := C15_reduce_greedy big k false bs' hbs' size hsize
    (⟨Fin.append pre.data z, Fin.append pre.weights v⟩ : Data (n + p) X K) none ord' hord' hpos'
  -- an appended row is never chosen: its first copy comes earlier
  have hleft : ∀ i, ∃ a : Fin n, F i = Fin.castAdd p a := by
    intro i
    induction hFi : F i using Fin.addCases with
    | left a => exact ⟨a, rfl⟩
    | right b =>
      exfalso
      obtain ⟨j, hj, hjz⟩ := hz b
      have h := ((hrun' i).2 (Fin.castAdd p j) ⟨by simpa using hj, fun h => absurd h (by simp)⟩).2 (by
        rw [hFi, Fin.lt_def]; simp only [Fin.val_castAdd, Fin.val_natAdd]; omega)
      rw [hFi] at h
      simp [hjz, regLap, regLogp] at h
  choose f' hf' using hleft
  have hrun'' : SteinReduce k pre.data pre.weights (regLap none) (regLogp none) false f' := by
    intro i
    obtain ⟨a, b⟩ := hrun' i
    simp only [hf', Fin.append_left] at a
    refine ⟨⟨a.1, fun h => absurd h (by simp)⟩, fun j hj => ?_⟩
    have := b (Fin.castAdd p j) ⟨by simpa using hj.1, fun h => absurd h (by simp)⟩
    simp only [hf', Fin.append_left] at this
    refine ⟨this.1, fun hlt => this.2 ?_⟩
    rw [Fin.lt_def] at hlt ⊢
    exact hlt
  have heq : f' = f := C15_reduce_determined k pre.data pre.weights _ _ false f' f hrun'' hrun
  subst heq
  have hFz : (fun t => ((F t : ℕ) : ℤ)) = fun t => ((f' t : ℕ) : ℤ) := by
    funext t; rw [hf' t]; rfl
  rw [hFz] at hF
  exact ⟨f', hf, hF⟩

theorem sum_lt_eq_range {size : ℕ} (F : ℕ → K) (i : ℕ) (hi : i ≤ size) : (∑ t : Fin size, if (t : ℕ) < i then F t else 0) = ∑ t ∈ Finset.range i, F t := by
  rw [Fin.sum_univ_eq_sum_range (fun t => if t < i then F t else 0) size, ← Finset.sum_filter]
  congr 1
  ext t
  simp only [Finset.mem_filter, Finset.mem_range]
  omega

/-- With two distinct values in the data, however unequal their frequencies, the coreset alternates between them: half of it sits at the rare value. -/
theorem C54_two_values [DecidableEq X] (big : K) (k : X → X → K) (a b : X) (D c : K) (haa : k a a = D) (hbb : k b b = D) (hab : k a b = c) (hba : k b a = c) (hc : c < D)
    (bs : PyTree (Option ℤ)) (hbs : ValidBlock bs) (size : ℕ) (hsize : 0 < size) (pre : Data n X K)
    (hw : ∀ j, 0 < pre.weights j) (hx : ∀ j, pre.data j = a ∨ pre.data j = b) (h0 : pre.data 0 = a) (hb : ∃ j, pre.data j = b)
    (ord : List (Fin (size + (size - size)))) (hord : ∀ t, t ∈ ord) (hle : size ≤ n) :
    ∃ f : Fin size → Fin n, steinReduce big k false bs size pre none ord = .ok ⟨fun t => (f t : ℤ), fun _ => 1⟩ ∧
      (∀ t, pre.data (f t) = if (t : ℕ) % 2 = 0 then a else b) ∧
      (Finset.univ.filter fun t => pre.data (f t) = b).card = size / 2 := by
  have hpos : PosCount pre.weights size := by simpa [PosCount, hw] using hle
  obtain ⟨f, h1, h2, -⟩ := C15_reduce_greedy big k false bs hbs size hsize pre none ord hord hpos
  have hne : a ≠ b := by rintro rfl; rw [haa] at hab; exact hc.ne hab.symm
  have key : ∀ N (i : Fin size), (i : ℕ) < N → pre.data (f i) = if (i : ℕ) % 2 = 0 then a else b := by
    intro N
    induction N with
    | zero => intro i hi; omega
    | succ N ih =>
      intro i hi
      have hprev : ∀ t : Fin size, t < i → pre.data (f t) = if (t : ℕ) % 2 = 0 then a else b := fun t ht => ih t (by
        rw [Fin.lt_def] at ht; omega)
      have hsum : ∀ y, (∑ t, if t < i then k y (pre.data (f t)) else 0) = ∑ t ∈ Finset.range i, k y (if t % 2 = 0 then a else b) := by
        intro y
        rw [← sum_lt_eq_range (size := size) (fun t => k y (if t % 2 = 0 then a else b)) i i.2.le]
        refine Finset.sum_congr rfl fun t _ => ?_
        by_cases ht : t < i
        · rw [if_pos ht, if_pos (Fin.lt_def.1 ht), hprev t ht]
        · rw [if_neg ht, if_neg fun h => ht (Fin.lt_def.2 h)]
      have hdiff : ∀ m : ℕ, (∑ t ∈ Finset.range m, k a (if t % 2 = 0 then a else b)) - (∑ t ∈ Finset.range m, k b (if t % 2 = 0 then a else b)) =
          if m % 2 = 0 then 0 else D - c := by
        intro m
        induction m with
        | zero => simp
        | succ m ihm =>
          rw [Finset.sum_range_succ, Finset.sum_range_succ, add_sub_add_comm, ihm]
          by_cases hm : m % 2 = 0
          · have : ¬ (m + 1) % 2 = 0 := by omega
            rw [if_neg this]
            simp [hm, haa, hba]
          · have : (m + 1) % 2 = 0 := by omega
            rw [if_pos this]
            simp [hm, hab, hbb]
      have hd := hdiff i
      by_cases hi2 : (i : ℕ) % 2 = 0
      · rw [if_pos hi2]
        rw [if_pos hi2, sub_eq_zero] at hd
        rcases Nat.eq_zero_or_pos (f i : ℕ) with hz | hz
        · have : f i = 0 := Fin.ext hz
          rw [this, h0]
        · exfalso
          have h := ((h2 i).2 0 ⟨hw 0, fun h => absurd h (by simp)⟩).2 (by rw [Fin.lt_def]; simpa using hz)
          simp only [hsum, h0, regLap, regLogp, mul_zero, sub_zero, add_zero] at h
          rcases hx (f i) with h3 | h3
          · rw [h3] at h; exact lt_irrefl _ h
          · rw [h3, hbb, haa, hd] at h; exact lt_irrefl _ h
      · rw [if_neg hi2]
        rw [if_neg hi2] at hd
        rcases hx (f i) with h3 | h3
        · exfalso
          obtain ⟨j, hj⟩ := hb
          have h := ((h2 i).2 j ⟨hw j, fun h => absurd h (by simp)⟩).1
          simp only [hsum, hj, h3, regLap, regLogp, mul_zero, sub_zero, add_zero, haa, hbb] at h
          linarith
        · exact h3
  have hall : ∀ t, pre.data (f t) = if (t : ℕ) % 2 = 0 then a else b := fun t => key _ t (Nat.lt_succ_self _)
  refine ⟨f, h1, hall, ?_⟩
  have hiff : ∀ t : Fin size, pre.data (f t) = b ↔ (t : ℕ) % 2 = 1 := by
    intro t
    rw [hall t]
    by_cases ht : (t : ℕ) % 2 = 0
    · simp [ht, hne]
    · simp [ht]; omega
  simp only [hiff]
  have : ∀ N : ℕ, (Finset.univ.filter fun t : Fin N => (t : ℕ) % 2 = 1).card = N / 2 := by
    intro N
    rw [Finset.card_filter, Fin.sum_univ_eq_sum_range (fun t => if t % 2 = 1 then 1 else 0) N]
    induction N with
    | zero => simp
    | succ N ih =>
      rw [Finset.sum_range_succ, ih]
      split_ifs <;> omega
  exact this size

end

/-! ### An end-to-end case -/

/-- Default kernel of the library, score function of the standard normal distribution, a row at 5 and a row at 0: the solver takes the row at 5; the
documented choice (the first step of greedy minimisation with the implied Stein kernel) is the row at 0. -/
theorem C54_documented_differs (big : ℝ) (unique : Bool) (o : SteinOptions 2) (ho : o.regularise = false) :
    let kernel : KExpr 1 := .squaredExponential 1 1
    let s : Vec 1 → Vec 1 := fun y i => -y i
    let pre : Data 2 (Vec 1) ℝ := ⟨![fun _ => 5, fun _ => 0], fun _ => 1⟩
    (∃ K, convertStein big pre.data kernel (some s) = .ok K ∧
      steinReduce big K.sem.compute unique (.leaf none) 1 pre none [0] = .ok ⟨fun _ => 1, fun _ => 1⟩) ∧
    steinThinningReduce big kernel (some s) unique o (.leaf none) 1 pre [0] = .ok ⟨fun _ => 0, fun _ => 1⟩ := by
  intro kernel s pre
  have hord : ∀ t : Fin (1 + (1 - 1)), t ∈ ([0] : List (Fin (1 + (1 - 1)))) := by decide
  have hpos : PosCount pre.weights 1 := by simp [PosCount, pre]
  have hbs : ValidBlock (.leaf none) := Or.inl rfl
  constructor
  · refine ⟨.stein kernel s, rfl, ?_⟩
    obtain ⟨f, h1, h2, -⟩ := C15_reduce_greedy big (KExpr.stein kernel s).sem.compute unique (.leaf none) hbs 1 one_pos pre none [0] hord hpos
    rw [h1]
    have hf : f 0 = 1 := by
      have h := ((h2 0).2 1 ⟨by simp [pre], fun _ t ht => absurd ht (by rw [Subsingleton.elim t 0]; exact lt_irrefl _)⟩).1
      by_contra hne
      have hf0 : f 0 = 0 := by
        rcases Fin.exists_fin_two.1 ⟨f 0, rfl⟩ with h | h
        · exact h
        · exact absurd h hne
      simp [hf0, pre, kernel, s, KExpr.sem, KSem.ofCompute, steinCompute, squaredExponentialSem, sqDist, vdot, regLap, regLogp] at h
      norm_num at h
    congr 2
    funext t
    rw [Subsingleton.elim t 0, hf]
    rfl
  · rw [(C54_score_ignored (m := 1) big kernel s unique o ho (.leaf none) 1 pre).2 [0]]
    obtain ⟨f, h1, -, h3⟩ := C54_first_row big kernel.sem.compute 1 unique (.leaf none) hbs 1 one_pos pre
      (fun j => by simp [kernel, KExpr.sem, squaredExponentialSem, sqDist]) [0] hord hpos
    rw [h1]
    have hf : f 0 = 0 := by
      have := h3 0 (by simp [pre])
      exact Fin.le_zero_iff.1 this
    congr 2
    funext t
    rw [Subsingleton.elim t 0, hf]
    rfl

/-- Hypotheses of `C54_two_values` and `C54_multiplicity`: three rows at one point, one row at another, four coreset points. -/
example : ∃ f : Fin 4 → Fin 4, steinReduce (1000 : ℚ) (fun a b : ℚ => if a = b then 1 else 1 / 2) false (.leaf none) 4 ⟨![1, 1, 1, 2], fun _ => 1⟩ none
    [0, 1, 2, 3] = .ok ⟨fun t => (f t : ℤ), fun _ => 1⟩ ∧ (Finset.univ.filter fun t => (![1, 1, 1, 2] : Fin 4 → ℚ) (f t) = 2).card = 4 / 2 := by
  obtain ⟨f, h1, -, h3⟩ := C54_two_values (1000 : ℚ) (fun a b : ℚ => if a = b then 1 else 1 / 2) 1 2 1 (1 / 2) (by norm_num) (by norm_num) (by norm_num)
    (by norm_num) (by norm_num) (.leaf none) (Or.inl rfl) 4 (by norm_num) (⟨![1, 1, 1, 2], fun _ => 1⟩ : Data 4 ℚ ℚ) (fun _ => one_pos)
    (by decide +kernel) rfl ⟨3, rfl⟩ [0, 1, 2, 3] (by decide) le_rfl
  exact ⟨f, h1, h3⟩

/-- The default regularisation parameter is one over the length of the coreset being refined; for a reduction this is one over the size asked for,
for a refinement it need not be. -/
theorem C54_default_lambda (big : ℝ) (kernel : KExpr d) (sm : Option (Vec d → Vec d)) (unique reg : Bool) (logpdf : Fin n → ℝ)
    (bs : PyTree (Option ℤ)) (size : ℕ) (pre : Data n (Vec d) ℝ) :
    (∀ (c : Data m ℤ ℝ) (ord : List (Fin (m + (size - m)))), steinThinningRefine big kernel sm unique ⟨reg, none, logpdf⟩ bs size pre c ord =
      steinThinningRefine big kernel sm unique ⟨reg, some (m : ℝ)⁻¹, logpdf⟩ bs size pre c ord) ∧
    ∀ ord, steinThinningReduce big kernel sm unique ⟨reg, none, logpdf⟩ bs size pre ord
      = steinThinningReduce big kernel sm unique ⟨reg, some (size : ℝ)⁻¹, logpdf⟩ bs size pre ord := by
  constructor
  · intro c ord
    simp only [steinThinningRefine, steinRegularisation, one_div]
  · intro ord
    simp only [steinThinningReduce, steinThinningRefine, steinRegularisation, one_div]

/-- Scaling the log-density and unscaling the parameter changes nothing: only their product matters. -/
theorem C54_lambda_product (big : ℝ) (kernel : KExpr d) (sm : Option (Vec d → Vec d)) (unique reg : Bool) (l : ℝ) (logpdf : Fin n → ℝ)
    (bs : PyTree (Option ℤ)) (size : ℕ) (pre : Data n (Vec d) ℝ) (ord : List (Fin (size + (size - size)))) :
    steinThinningReduce big kernel sm unique ⟨reg, some l, logpdf⟩ bs size pre ord
      = steinThinningReduce big kernel sm unique ⟨reg, some 1, fun j => l * logpdf j⟩ bs size pre ord := by
  simp only [steinThinningReduce, steinThinningRefine, steinRegularisation, one_mul]

/-- The Laplace term of an affine score: the sum of the positive diagonal entries, the same at every point. -/
theorem C54_laplace_affine (A : Fin d → Fin d → ℝ) (b x : Vec d) :
    laplacePositive (fun y i => (∑ j, A i j * y j) + b i) x = ∑ i, max (A i i) 0 := by
  unfold laplacePositive
  refine Finset.sum_congr rfl fun i _ => ?_
  congr 1
  have h : (fun t => (∑ j, A i j * Function.update x i t j) + b i) = fun t => A i i * t + ((∑ j ∈ Finset.univ.erase i, A i j * x j) + b i) := by
    funext t
    rw [← Finset.add_sum_erase _ _ (Finset.mem_univ i), Function.update_self, add_assoc]
    congr 2
    refine Finset.sum_congr rfl fun j hj => ?_
    rw [Function.update_of_ne (Finset.ne_of_mem_erase hj)]
  rw [h]
  simp

/-- Hence the score of any Gaussian, however wrong its mean and covariance, leads to the same coreset as any other, regularised or not: a
symmetric `A` with non-positive diagonal makes the Laplace term zero everywhere. -/
theorem C54_gaussian_scores (big : ℝ) (kernel : KExpr d) (A A' : Fin d → Fin d → ℝ) (hA : ∀ i, A i i ≤ 0) (hA' : ∀ i, A' i i ≤ 0) (b b' : Vec d)
    (unique : Bool) (o : SteinOptions n) (bs : PyTree (Option ℤ)) (size : ℕ) (pre : Data n (Vec d) ℝ) (ord : List (Fin (size + (size - size)))) :
    steinThinningReduce big kernel (some fun y i => (∑ j, A i j * y j) + b i) unique o bs size pre ord
      = steinThinningReduce big kernel (some fun y i => (∑ j, A' i j * y j) + b' i) unique o bs size pre ord := by
  refine C54_score_laplace_only big kernel _ _ unique o bs size pre (fun j => ?_) ord
  rw [C54_laplace_affine, C54_laplace_affine]
  exact Finset.sum_congr rfl fun i _ => by rw [max_eq_right (hA i), max_eq_right (hA' i)]

/-- Two Gaussians in the plane. -/
example : ∀ i, (!![-1, 0; 0, -1] : Matrix (Fin 2) (Fin 2) ℝ) i i ≤ 0 ∧ (!![-3, 1; 1, -5] : Matrix (Fin 2) (Fin 2) ℝ) i i ≤ 0 := by
  intro i; fin_cases i <;> norm_num

example (data : Fin 3 → Vec 1) := C54_always_stein 1000 data (.laplacian 2 1) (some fun x => -x) (K := .stein (.laplacian 2 1) fun x => -x) rfl

example (pre : Data 3 (Vec 1) ℝ) (logpdf : Fin 3 → ℝ) := C54_score_ignored (m := 1) 1000 (.laplacian 2 1) (fun x => -x) true ⟨false, none, logpdf⟩ rfl (.leaf none) 2 pre

example := C54_first_row (1000 : ℚ) (fun a b : ℚ => if a = b then 1 else 1 / 2) 1 true (.leaf none) (Or.inl rfl) 2 (by norm_num) (⟨![1, 1, 1, 2], ![0, 2, 0, 1]⟩ : Data 4 ℚ ℚ)
  (fun j => by simp) [0, 1] (by decide) (by unfold PosCount; decide +kernel)

example := C54_multiplicity (p := 2) (1000 : ℚ) (fun a b : ℚ => if a = b then 1 else 1 / 2) (.leaf none) (.leaf none) (Or.inl rfl) (Or.inl rfl) 2 (by norm_num) (⟨![1, 1, 2], ![0, 2, 1]⟩ : Data 3 ℚ ℚ)
  ![2, 1] ![5, 0] (by decide +kernel) [0, 1] [1, 0] (by decide) (by decide) (by unfold PosCount; decide +kernel)

end Coreax
