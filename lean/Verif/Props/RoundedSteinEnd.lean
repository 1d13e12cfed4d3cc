import Verif.Props.RoundedStein
import Verif.Props.RoundedPcimq
import Verif.Props.SteinKernel

/-!
# Stein thinning and the KSD in rounded arithmetic, from the coordinates to the reported number

C113 takes the error of the Stein kernel as given, C115 bounds it for the default base kernel.
-/

namespace Coreax

open Greedy Spec

namespace SteinEnd

/-- The bound of the Stein kernel and of the sizes of its terms for scores with entries of size at most `B`. -/
noncomputable def bound (l s : ℝ) (d : ℕ) (B : ℝ) : ℝ := s * ((d + 3) / (2 * l ^ 2) + 2 * d * B / Real.sqrt (2 * l ^ 2) + d * B ^ 2)

/-- The error of a value of the Stein kernel as computed. -/
noncomputable def kernelError (u l s : ℝ) (d q : ℕ) (B : ℝ) : ℝ := (1 / (1 - u) ^ (6 * d + 64 + 2 * q) - 1) * bound l s d B

theorem psd {l s : ℝ} {d : ℕ} (hl : 0 < l) (hs : 0 < s) (score : Vec d → Vec d) : IsPSD (KExpr.stein (.pcimq l s) score : KExpr d).sem.compute :=
  C35_psd (.pcimq l s) score (by simp [KExpr.check, checkPos, hl.not_ge, hs.not_ge, bind, Except.bind]) trivial trivial

end SteinEnd

open SteinEnd

variable {u : ℝ} {o : FloatOps ℝ} {num : ℕ → ℝ} {pw : ℕ → ℝ → ℝ} {l s : ℝ} {d n : ℕ} [NeZero n]

/-- C118, one value: its error and its size on points where the scores are bounded. -/
theorem C118_value (hu0 : 0 ≤ u) (hu : u < 1) (ho : Rounding u o) (hnum : ∀ n : ℕ, |num n - n| ≤ u * |(n : ℝ)|) (hpw : PowRounding u pw) (hd : 0 < d)
    (hl : 0 < l) (hs : 0 < s) (S score score' : Vec d → Vec d) (q : ℕ) (hscore : ∀ x i, Within u q (S x i) (score x i) (score' x i)) (B : ℝ) (x y : Vec d)
    (hx : ∀ i, S x i ≤ B) (hy : ∀ i, S y i ≤ B) :
    |(KExpr.stein (.pcimq l s) score : KExpr d).sem.compute x y| ≤ bound l s d B ∧
      |flSteinPcimq o num pw l s score' x y - (KExpr.stein (.pcimq l s) score : KExpr d).sem.compute x y| ≤ kernelError u l s d q B := by
  have h := C115_stein hu0 hu ho hnum hpw hd hl hs S score score' q hscore x y
  have hb := C115_size hl hs S x y B (fun t => (hscore _ t).size_nonneg) (fun t => (hscore _ t).size_nonneg) hx hy
  exact ⟨h.1.trans hb, h.2.trans (mul_le_mul_of_nonneg_left hb (by linarith [Within.one_le hu0 hu (6 * d + 64 + 2 * q)]))⟩

/-- C118, the default: distinct points on equally weighted rows, the kernel evaluated in the same arithmetic as the loop, with any regularisation. -/
theorem C118_rate_unique (hu0 : 0 ≤ u) (hu : u < 1) (ho : Rounding u o) (hnum : ∀ n : ℕ, |num n - n| ≤ u * |(n : ℝ)|) (hpw : PowRounding u pw) (hd : 0 < d)
    (hl : 0 < l) (hs : 0 < s) (S score score' : Vec d → Vec d) (q : ℕ) (hscore : ∀ x i, Within u q (S x i) (score x i) (score' x i))
    (pre : Data n (Vec d) ℝ) (huw : UniformWeights pre.weights) (B : ℝ) (hB : ∀ j i, S (pre.data j) i ≤ B)
    (lap logp : Fin n → ℝ) {Λ L : ℝ} (hl0 : ∀ j, 0 ≤ lap j) (hΛ : ∀ j, lap j ≤ Λ) (hL : ∀ j, |logp j| ≤ L)
    (size : ℕ) (hsize : 0 < size) (hpos : PosCount pre.weights size) (ord : List (Fin size)) :
    let k := (KExpr.stein (.pcimq l s) score : KExpr d).sem.compute
    let k' := flSteinPcimq o num pw l s score'
    ∃ f : Fin size → Fin n, flSteinReduce o k' (fun j => k' (pre.data j) (pre.data j)) lap logp true size pre ord = .ok ⟨fun t => (f t : ℤ), fun _ => 1⟩ ∧
      Function.Injective f ∧
      ksd k (fun t => pre.data (f t)) (fun _ => 1) ≤ ksd k pre.data pre.weights
        + Real.sqrt ((bound l s d B + Λ + L * (size + 1)
          + (∑ i ∈ Finset.range size, 2 * objectiveError u (kernelError u l s d q B) (bound l s d B) Λ L i) / size) / size) := by
  intro k k'
  have hv := fun i j => C118_value hu0 hu ho hnum hpw hd hl hs S score score' q hscore B (pre.data i) (pre.data j) (hB i) (hB j)
  exact C113_rate_unique hu0 ho k k' (psd hl hs score).1 pre ((psd hl hs score).2 n pre.data) huw _ lap logp (fun i j => (hv i j).2) (fun j => (hv j j).2)
    (fun i j => (hv i j).1) hl0 hΛ hL size hsize hpos ord

/-- C118, repeated points allowed: any weights, compared with the best weights on the rows of positive weight. -/
theorem C118_rate (hu0 : 0 ≤ u) (hu : u < 1) (ho : Rounding u o) (hnum : ∀ n : ℕ, |num n - n| ≤ u * |(n : ℝ)|) (hpw : PowRounding u pw) (hd : 0 < d)
    (hl : 0 < l) (hs : 0 < s) (S score score' : Vec d → Vec d) (q : ℕ) (hscore : ∀ x i, Within u q (S x i) (score x i) (score' x i))
    (pre : Data n (Vec d) ℝ) (B : ℝ) (hB : ∀ j i, S (pre.data j) i ≤ B)
    (lap logp : Fin n → ℝ) {Λ L : ℝ} (hl0 : ∀ j, 0 ≤ lap j) (hΛ : ∀ j, lap j ≤ Λ) (hL : ∀ j, |logp j| ≤ L)
    (size : ℕ) (hsize : 0 < size) (hle : size ≤ n) (hpos : ∃ j, 0 < pre.weights j) (ord : List (Fin size)) :
    let k := (KExpr.stein (.pcimq l s) score : KExpr d).sem.compute
    let k' := flSteinPcimq o num pw l s score'
    ∃ f : Fin size → Fin n, flSteinReduce o k' (fun j => k' (pre.data j) (pre.data j)) lap logp false size pre ord = .ok ⟨fun t => (f t : ℤ), fun _ => 1⟩ ∧
      ∀ v : Fin n → ℝ, (∀ j, 0 ≤ v j) → 0 < ∑ j, v j → (∀ j, 0 < v j → 0 < pre.weights j) →
        ksd k (fun t => pre.data (f t)) (fun _ => 1) ≤ ksd k pre.data v
          + Real.sqrt ((bound l s d B + Λ + L * (size + 1)
            + (∑ i ∈ Finset.range size, 2 * objectiveError u (kernelError u l s d q B) (bound l s d B) Λ L i) / size) / size) := by
  intro k k'
  have hv := fun i j => C118_value hu0 hu ho hnum hpw hd hl hs S score score' q hscore B (pre.data i) (pre.data j) (hB i) (hB j)
  exact C113_rate hu0 ho k k' (psd hl hs score).1 pre ((psd hl hs score).2 n pre.data) _ lap logp (fun i j => (hv i j).2) (fun j => (hv j j).2)
    (fun i j => (hv i j).1) hl0 hΛ hL size hsize hle hpos ord

/-- C118, the reported numbers: the KSD that the program computes for the coreset it chose, against the KSD that it computes for the data. -/
theorem C118_reported (hu0 : 0 ≤ u) (hu : u < 1) (ho : Rounding u o) (hnum : ∀ n : ℕ, |num n - n| ≤ u * |(n : ℝ)|) (hpw : PowRounding u pw) (hd : 0 < d)
    (hl : 0 < l) (hs : 0 < s) (S score score' : Vec d → Vec d) (q : ℕ) (hscore : ∀ x i, Within u q (S x i) (score x i) (score' x i))
    (pre : Data n (Vec d) ℝ) (huw : UniformWeights pre.weights) (B : ℝ) (hB : ∀ j i, S (pre.data j) i ≤ B)
    (lap logp : Fin n → ℝ) {Λ L : ℝ} (hl0 : ∀ j, 0 ≤ lap j) (hΛ : ∀ j, lap j ≤ Λ) (hL : ∀ j, |logp j| ≤ L)
    (size : ℕ) (hsize : 0 < size) (hpos : PosCount pre.weights size) (ord : List (Fin size))
    (bs : PyTree (Option ℤ)) (a b : Option ℤ) (hab : treeLeavesRepeat bs 2 = [a, b]) :
    let k' := flSteinPcimq o num pw l s score'
    ∃ (f : Fin size → Fin n) (r r₀ : ℝ),
      flSteinReduce o k' (fun j => k' (pre.data j) (pre.data j)) lap logp true size pre ord = .ok ⟨fun t => (f t : ℤ), fun _ => 1⟩ ∧
      Function.Injective f ∧
      flKSD o num k' ⟨fun t => pre.data (f t), fun _ => (1 : ℝ)⟩ bs none none = .ok r ∧ flKSD o num k' pre bs none none = .ok r₀ ∧
      (1 - u) * r ≤ (1 - u) * (1 + u) * Real.sqrt ((1 / (1 - u) ^ ksdRoundings (6 * d + 64 + 2 * q) size a b - 1) * bound l s d B)
        + (1 + u) * (r₀ + (1 + u) * Real.sqrt ((1 / (1 - u) ^ ksdRoundings (6 * d + 64 + 2 * q) n a b - 1) * bound l s d B))
        + (1 - u) * (1 + u) * Real.sqrt ((bound l s d B + Λ + L * (size + 1)
          + (∑ i ∈ Finset.range size, 2 * objectiveError u (kernelError u l s d q B) (bound l s d B) Λ L i) / size) / size) := by
  intro k'
  obtain ⟨f, h1, h2, h3⟩ := C118_rate_unique hu0 hu ho hnum hpw hd hl hs S score score' q hscore pre huw B hB lap logp hl0 hΛ hL size hsize hpos ord
  obtain ⟨c, hc0, hc⟩ := huw
  have hw0 : ∀ j, 0 ≤ pre.weights j := fun j => by rcases hc j with h | h <;> rw [h]; exact hc0.le
  have hw : 0 < ∑ j, pre.weights j := by
    obtain ⟨j, hj⟩ := Finset.card_pos.1 (lt_of_lt_of_le hsize hpos)
    exact Finset.sum_pos' (fun i _ => hw0 i) ⟨j, Finset.mem_univ _, (Finset.mem_filter.1 hj).2⟩
  have hws : (0 : ℝ) < ∑ _t : Fin size, (1 : ℝ) := by simpa using hsize
  obtain ⟨r, e, g1, g2, g3⟩ := C115_ksd hu0 hu ho hnum hpw hd hl hs S score score' q hscore 0 ⟨fun t => pre.data (f t), fun _ => (1 : ℝ)⟩
    (fun _ => zero_le_one) hws B (fun t i => hB (f t) i) bs (.leaf none) a b hab (.inl rfl)
  obtain ⟨r₀, e₀, k1, k2, k3⟩ := C115_ksd hu0 hu ho hnum hpw hd hl hs S score score' q hscore 0 pre hw0 hw B hB bs (.leaf none) a b hab (.inl rfl)
  have hpsd := psd hl hs score
  rw [(C35_ksd_norm 0 _ hpsd hsize ⟨fun t => pre.data (f t), fun _ => (1 : ℝ)⟩ hws.ne' (.leaf none) (.inl rfl)).1] at g2
  rw [(C35_ksd_norm 0 _ hpsd (NeZero.pos n) pre hw.ne' (.leaf none) (.inl rfl)).1] at k2
  cases g2
  cases k2
  refine ⟨f, r, r₀, h1, h2, g1, k1, ?_⟩
  change _ ≤ _ at h3
  unfold ksd at h3
  have a1 := (abs_le.1 g3).2
  have a2 := (abs_le.1 k3).1
  change _ ≤ u * _ + (1 + u) * Real.sqrt (_ * bound l s d B) at a1
  change -(u * _ + (1 + u) * Real.sqrt (_ * bound l s d B)) ≤ _ at a2
  dsimp only at a1
  have b1 := mul_le_mul_of_nonneg_left a1 (by linarith : 0 ≤ 1 - u)
  have b2 := mul_le_mul_of_nonneg_left h3 (mul_nonneg (by linarith) (by linarith) : 0 ≤ (1 - u) * (1 + u))
  have b3 := mul_le_mul_of_nonneg_left a2 (by linarith : 0 ≤ 1 + u)
  nlinarith

/-! ### Cases -/

example := C118_value (u := (1 / 2) ^ 24) (by norm_num) (by norm_num) (roundedOps_rounding fun a => binaryRound_error 23 a) (num := fun n => binaryRound 23 n)
    (fun n => binaryRound_error 23 n) (roundedPow_rounding (by norm_num) (by norm_num) fun a => binaryRound_error 23 a) (d := 2) (by norm_num) (l := 1 / 2) (s := 3)
    (by norm_num) (by norm_num) (fun x i => |-x i|) (fun x i => -x i) (fun x i => -x i) 0 (fun x i => Within.refl _ _) 1 ![0, 1] ![1 / 3, -1]
    (by intro i; fin_cases i <;> norm_num) (by intro i; fin_cases i <;> norm_num)

/-- Three points of the plane, single precision, the score of the standard normal distribution, with a regularisation. -/
example := C118_rate_unique (u := (1 / 2) ^ 24) (by norm_num) (by norm_num) (roundedOps_rounding fun a => binaryRound_error 23 a) (num := fun n => binaryRound 23 n)
    (fun n => binaryRound_error 23 n) (roundedPow_rounding (by norm_num) (by norm_num) fun a => binaryRound_error 23 a) (d := 2) (by norm_num) (l := 1 / 2) (s := 3)
    (by norm_num) (by norm_num) (fun x i => |-x i|) (fun x i => -x i) (fun x i => -x i) 0 (fun x i => Within.refl _ _)
    (n := 3) ⟨![![0, 1], ![1 / 3, -1], ![1, 1]], ![1, 1, 1]⟩ ⟨1, by norm_num, by intro i; fin_cases i <;> simp⟩ 1
    (by intro j i; fin_cases j <;> fin_cases i <;> norm_num [abs_le]) ![0, 1, 2] ![-1, 0, 1] (Λ := 2) (L := 1)
    (by intro j; fin_cases j <;> norm_num) (by intro j; fin_cases j <;> norm_num) (by intro j; fin_cases j <;> norm_num)
    2 (by norm_num) (by simp [PosCount, Finset.filter_true_of_mem, Fin.forall_fin_succ]) (List.finRange 2)

example := C118_rate (u := (1 / 2) ^ 24) (by norm_num) (by norm_num) (roundedOps_rounding fun a => binaryRound_error 23 a) (num := fun n => binaryRound 23 n)
    (fun n => binaryRound_error 23 n) (roundedPow_rounding (by norm_num) (by norm_num) fun a => binaryRound_error 23 a) (d := 2) (by norm_num) (l := 1 / 2) (s := 3)
    (by norm_num) (by norm_num) (fun x i => |-x i|) (fun x i => -x i) (fun x i => -x i) 0 (fun x i => Within.refl _ _)
    (n := 3) ⟨![![0, 1], ![1 / 3, -1], ![1, 1]], ![3, 0, 1]⟩ 1
    (by intro j i; fin_cases j <;> fin_cases i <;> norm_num [abs_le]) ![0, 1, 2] ![-1, 0, 1] (Λ := 2) (L := 1)
    (by intro j; fin_cases j <;> norm_num) (by intro j; fin_cases j <;> norm_num) (by intro j; fin_cases j <;> norm_num)
    2 (by norm_num) (by norm_num) ⟨0, by norm_num⟩ (List.finRange 2)

example := C118_reported (u := (1 / 2) ^ 24) (by norm_num) (by norm_num) (roundedOps_rounding fun a => binaryRound_error 23 a) (num := fun n => binaryRound 23 n)
    (fun n => binaryRound_error 23 n) (roundedPow_rounding (by norm_num) (by norm_num) fun a => binaryRound_error 23 a) (d := 2) (by norm_num) (l := 1 / 2) (s := 3)
    (by norm_num) (by norm_num) (fun x i => |-x i|) (fun x i => -x i) (fun x i => -x i) 0 (fun x i => Within.refl _ _)
    (n := 3) ⟨![![0, 1], ![1 / 3, -1], ![1, 1]], ![1, 1, 1]⟩ ⟨1, by norm_num, by intro i; fin_cases i <;> simp⟩ 1
    (by intro j i; fin_cases j <;> fin_cases i <;> norm_num [abs_le]) (fun _ => 0) (fun _ => 0) (Λ := 0) (L := 0)
    (fun _ => le_rfl) (fun _ => le_rfl) (fun _ => by simp)
    2 (by norm_num) (by simp [PosCount, Finset.filter_true_of_mem, Fin.forall_fin_succ]) (List.finRange 2) (.leaf (some 2)) (some 2) (some 2) rfl

end Coreax
