import Verif.Props.PivotBest
import Verif.Props.PivotRank
import Verif.Props.Reweighting

/-!
# C75: quadrature on randomly pivoted points

`RPCholesky.reduce` followed by `SBQWeightsOptimiser.solve`.
-/

set_option linter.unusedSectionVars false

namespace Coreax

open Spec MeasureTheory

namespace Quadrature

section
variable {X : Type} {n m : ℕ} {k : X → X → ℝ}

/-- The form of the difference of two unit vectors. -/
theorem form_pair {R : Fin n → Fin n → ℝ} (hR : NonnegForm R) (i j : Fin n) : 0 ≤ R i i - R i j - R j i + R j j := by
  have h := hR (Pi.single i 1 - Pi.single j 1)
  have e : ∑ a, ∑ b, (Pi.single i (1 : ℝ) - Pi.single j 1 : Fin n → ℝ) a * (Pi.single i (1 : ℝ) - Pi.single j 1 : Fin n → ℝ) b * R a b
      = R i i - R i j - R j i + R j j := by
    have h1 : ∀ a, ∑ b, (Pi.single i (1 : ℝ) - Pi.single j 1 : Fin n → ℝ) a * (Pi.single i (1 : ℝ) - Pi.single j 1 : Fin n → ℝ) b * R a b
        = (Pi.single i (1 : ℝ) - Pi.single j 1 : Fin n → ℝ) a * (R a i - R a j) := by
      intro a
      simp only [Pi.sub_apply, mul_assoc, ← Finset.mul_sum]
      congr 1
      simp only [sub_mul, Finset.sum_sub_distrib, Pi.single_apply, ite_mul, one_mul, zero_mul]
      simp
    simp only [h1]
    simp only [Pi.sub_apply, sub_mul, Finset.sum_sub_distrib, Pi.single_apply, ite_mul, one_mul, zero_mul]
    simp
    ring
  rwa [e] at h

/-- A non-negative form is convex: at non-negative weights it is at most the weighted mean of its diagonal. -/
theorem form_le_diag {R : Fin n → Fin n → ℝ} (hR : NonnegForm R) {w : Fin n → ℝ} (hw : ∀ i, 0 ≤ w i) :
    ∑ i, ∑ j, w i * w j * R i j ≤ (∑ i, w i) * ∑ i, w i * R i i := by
  have h : 0 ≤ ∑ i, ∑ j, w i * w j * (R i i - R i j - R j i + R j j) :=
    Finset.sum_nonneg fun i _ => Finset.sum_nonneg fun j _ => mul_nonneg (mul_nonneg (hw i) (hw j)) (form_pair hR i j)
  have e1 : ∑ i, ∑ j, w i * w j * R i i = (∑ i, w i) * ∑ i, w i * R i i := by
    rw [Finset.sum_mul_sum, Finset.sum_comm]
    exact Finset.sum_congr rfl fun i _ => Finset.sum_congr rfl fun j _ => by ring
  have e2 : ∑ i, ∑ j, w i * w j * R j j = (∑ i, w i) * ∑ i, w i * R i i := by
    rw [Finset.sum_mul_sum]
    exact Finset.sum_congr rfl fun i _ => Finset.sum_congr rfl fun j _ => by ring
  have e3 : ∑ i, ∑ j, w i * w j * R j i = ∑ i, ∑ j, w i * w j * R i j := by
    rw [Finset.sum_comm]
    exact Finset.sum_congr rfl fun i _ => Finset.sum_congr rfl fun j _ => by ring
  simp only [mul_add, mul_sub, Finset.sum_add_distrib, Finset.sum_sub_distrib, e1, e2, e3] at h
  linarith

/-- Weights on the points of a Nyström approximation: the best ones, and by how much all others are worse. -/
theorem best_weights (hk : IsPSD k) (x : Fin n → X) (f : Fin m → Fin n) {A : Fin n → Fin n → ℝ}
    (hA : IsNystrom (fun i j => k (x i) (x j)) {j | ∃ t, ((f t : ℕ) : ℤ) = (j : ℤ)} A) (w : Fin n → ℝ) :
    ∃ u : Fin m → ℝ, (∀ l, ∑ t, u t * k (x (f t)) (x l) = ∑ i, w i * A l i) ∧
      ∀ v : Fin m → ℝ, distSq k x w (fun t => x (f t)) v = ∑ i, ∑ j, w i * w j * (k (x i) (x j) - A i j) +
        ∑ s, ∑ t, (v s - u s) * (v t - u t) * k (x (f s)) (x (f t)) := by
  have hspan : (∑ i, w i • fun l => A l i) ∈ columnSpan (fun i j => k (x i) (x j)) {j | ∃ t, ((f t : ℕ) : ℤ) = (j : ℤ)} :=
    Submodule.sum_mem _ fun i _ => Submodule.smul_mem _ _ (hA.span i)
  have himg : (fun s l => k (x l) (x s)) '' {j : Fin n | ∃ t, ((f t : ℕ) : ℤ) = (j : ℤ)} = Set.range fun t l => k (x l) (x (f t)) := by
    ext v
    constructor
    · rintro ⟨j, ⟨t, ht⟩, rfl⟩
      have : f t = j := Fin.ext (by exact_mod_cast ht)
      exact ⟨t, by subst this; rfl⟩
    · rintro ⟨t, rfl⟩
      exact ⟨f t, ⟨t, rfl⟩, rfl⟩
  rw [columnSpan, himg] at hspan
  obtain ⟨u, hu⟩ := (Submodule.mem_span_range_iff_exists_fun ℝ).1 hspan
  have hu' : ∀ l, ∑ t, u t * k (x (f t)) (x l) = ∑ i, w i * A l i := by
    intro l
    have := congrFun hu l
    simp only [Finset.sum_apply, Pi.smul_apply, smul_eq_mul] at this
    simp only [hk.1 _ (x l)]
    exact this
  refine ⟨u, hu', fun v => ?_⟩
  -- the cross term
  have hcross : ∀ t, ∑ i, w i * k (x i) (x (f t)) = ∑ s, u s * k (x (f s)) (x (f t)) := by
    intro t
    rw [hu' (f t)]
    refine Finset.sum_congr rfl fun i _ => ?_
    rw [hA.exact (f t) ⟨t, rfl⟩ i, hk.1]
  have h1 : ∑ i, ∑ j, w i * v j * k (x i) (x (f j)) = ∑ t, v t * ∑ s, u s * k (x (f s)) (x (f t)) := by
    rw [Finset.sum_comm]
    refine Finset.sum_congr rfl fun t _ => ?_
    rw [← hcross t, Finset.mul_sum]
    exact Finset.sum_congr rfl fun i _ => by ring
  have h2 : ∑ i, ∑ j, w i * w j * A i j = ∑ t, u t * ∑ s, u s * k (x (f s)) (x (f t)) := by
    have : ∀ i, ∑ j, w i * w j * A i j = ∑ t, u t * (w i * k (x i) (x (f t))) := by
      intro i
      have := hu' i
      calc ∑ j, w i * w j * A i j = w i * ∑ j, w j * A i j := by rw [Finset.mul_sum]; exact Finset.sum_congr rfl fun j _ => by ring
        _ = w i * ∑ t, u t * k (x (f t)) (x i) := by rw [this]
        _ = _ := by rw [Finset.mul_sum]; exact Finset.sum_congr rfl fun t _ => by rw [hk.1 (x (f t))]; ring
    simp only [this]
    rw [Finset.sum_comm]
    refine Finset.sum_congr rfl fun t _ => ?_
    rw [← hcross t, Finset.mul_sum]
  have h3 : ∑ s, ∑ t, (v s - u s) * (v t - u t) * k (x (f s)) (x (f t))
      = ∑ s, ∑ t, v s * v t * k (x (f s)) (x (f t)) - 2 * ∑ t, v t * ∑ s, u s * k (x (f s)) (x (f t))
        + ∑ t, u t * ∑ s, u s * k (x (f s)) (x (f t)) := by
    have e1 : ∑ s, ∑ t, v s * u t * k (x (f s)) (x (f t)) = ∑ t, v t * ∑ s, u s * k (x (f s)) (x (f t)) := by
      refine Finset.sum_congr rfl fun s _ => ?_
      rw [Finset.mul_sum]
      exact Finset.sum_congr rfl fun t _ => by rw [hk.1 (x (f s))]; ring
    have e2 : ∑ s, ∑ t, u s * v t * k (x (f s)) (x (f t)) = ∑ t, v t * ∑ s, u s * k (x (f s)) (x (f t)) := by
      rw [Finset.sum_comm]
      refine Finset.sum_congr rfl fun s _ => ?_
      rw [Finset.mul_sum]
      exact Finset.sum_congr rfl fun t _ => by ring
    have e3 : ∑ s, ∑ t, u s * u t * k (x (f s)) (x (f t)) = ∑ t, u t * ∑ s, u s * k (x (f s)) (x (f t)) := by
      rw [Finset.sum_comm]
      refine Finset.sum_congr rfl fun s _ => ?_
      rw [Finset.mul_sum]
      exact Finset.sum_congr rfl fun t _ => by ring
    have e4 : ∀ s t, (v s - u s) * (v t - u t) * k (x (f s)) (x (f t)) = v s * v t * k (x (f s)) (x (f t)) - v s * u t * k (x (f s)) (x (f t))
        - u s * v t * k (x (f s)) (x (f t)) + u s * u t * k (x (f s)) (x (f t)) := fun s t => by ring
    simp only [e4, Finset.sum_add_distrib, Finset.sum_sub_distrib, e1, e2, e3]
    ring
  unfold distSq
  rw [h1, h3]
  simp only [mul_sub, Finset.sum_sub_distrib, h2]
  ring

end

end Quadrature

section
variable {X : Type} {n size : ℕ} [NeZero n] {k : X → X → ℝ}

/-- C75: the error of the best weights on the selected points, for any weights of the data: it is the quadratic form of what the
Nyström approximation leaves over. For weights on the simplex it is at most the weighted mean of the residual diagonal. -/
theorem C75_best_weights (hk : IsPSD k) (x : Fin n → X) (unique : Bool) (draw : PivotDraw n ℝ) (hd : PivotContract draw) (hs : size ≤ n) :
    ∃ (f : Fin size → Fin n) (state : Fin n → Ext ℝ) (A : Fin n → Fin n → ℝ),
      rpcReduce Real.sqrt k x unique draw size none = .ok (⟨fun t => ((f t : ℕ) : ℤ), fun _ => 1⟩, state) ∧
      IsNystrom (fun i j => k (x i) (x j)) {j | ∃ t, ((f t : ℕ) : ℤ) = (j : ℤ)} A ∧
      ∀ w : Fin n → ℝ,
        IsLeast (Set.range fun v : Fin size → ℝ => distSq k x w (fun t => x (f t)) v) (∑ i, ∑ j, w i * w j * (k (x i) (x j) - A i j)) ∧
        (OnSimplex w → ∑ i, ∑ j, w i * w j * (k (x i) (x j) - A i j) ≤ ∑ j, w j * (k (x j) (x j) - A j j)) := by
  obtain ⟨f, state, -, hf⟩ := C16_distinct (size := size) Real.sqrt k x
    (fun j => by simpa using hk.2 1 (fun _ => x j) (fun _ => 1)) unique draw hd hs
  obtain ⟨A, hA, hpos, -⟩ := C16_nystrom k hk x unique draw hd hf
  refine ⟨f, state, A, hf, hA, fun w => ⟨?_, fun hw => ?_⟩⟩
  · obtain ⟨u, -, hu⟩ := Quadrature.best_weights hk x f hA w
    refine ⟨⟨u, ?_⟩, ?_⟩
    · show distSq k x w (fun t => x (f t)) u = _
      rw [hu u]; simp
    · rintro _ ⟨v, rfl⟩
      show _ ≤ distSq k x w (fun t => x (f t)) v
      rw [hu v]
      exact le_add_of_nonneg_right (hk.2 size (fun t => x (f t)) fun t => v t - u t)
  · have := Quadrature.form_le_diag hpos hw.1
    rwa [hw.2, one_mul] at this

/-- Columns of the Gram matrix at the points `f` are independent exactly when the Gram matrix of these points is positive definite. -/
theorem Quadrature.strictPD_iff (hk : IsPSD k) (x : Fin n → X) (f : Fin size → Fin n) :
    StrictPD k 0 (fun t => x (f t)) ↔ LinearIndependent ℝ (fun t l => k (x l) (x (f t))) := by
  rw [Fintype.linearIndependent_iff]
  constructor
  · intro h v hv
    by_contra hne
    push Not at hne
    have hpos := h v hne
    have hz : ∀ l, ∑ t, v t * k (x l) (x (f t)) = 0 := fun l => by
      have := congrFun hv l
      simpa only [Finset.sum_apply, Pi.smul_apply, smul_eq_mul, Pi.zero_apply] using this
    have : ∑ i, ∑ j, v i * v j * k (x (f i)) (x (f j)) = 0 := by
      refine Finset.sum_eq_zero fun i _ => ?_
      have := hz (f i)
      calc ∑ j, v i * v j * k (x (f i)) (x (f j)) = v i * ∑ j, v j * k (x (f i)) (x (f j)) := by
            rw [Finset.mul_sum]; exact Finset.sum_congr rfl fun j _ => by ring
        _ = 0 := by rw [this, mul_zero]
    rw [this] at hpos
    simp at hpos
  · intro h v hv
    rw [zero_mul, add_zero]
    refine lt_of_le_of_ne (hk.2 size (fun t => x (f t)) v) fun h0 => ?_
    obtain ⟨H, _, _, φ, hφ⟩ := hk.exists_feature
    have hn : inner ℝ (∑ t, v t • φ (x (f t))) (∑ t, v t • φ (x (f t))) = (0 : ℝ) := by
      rw [h0]
      simp only [sum_inner, inner_sum, inner_smul_left, inner_smul_right, RCLike.conj_to_real, hφ]
      refine Finset.sum_congr rfl fun i _ => ?_
      rw [Finset.mul_sum]
      exact Finset.sum_congr rfl fun j _ => by rw [real_inner_comm]; ring
    have hz := inner_self_eq_zero.1 hn
    obtain ⟨i, hi⟩ := hv
    refine hi (h v ?_ i)
    funext l
    simp only [Finset.sum_apply, Pi.smul_apply, smul_eq_mul, Pi.zero_apply, hφ]
    have := congrArg (fun z => inner ℝ (φ (x l)) z) hz
    simpa only [inner_sum, inner_smul_right, inner_zero_right] using this

/-- C75: whatever the draws, the Gram matrix of the selected points is invertible if and only if there are no more points than the rank of
the Gram matrix of the data allows, so that unregularised weights exist. -/
theorem C75_invertible (hk : IsPSD k) (x : Fin n → X) (unique : Bool) (draw : PivotDraw n ℝ) (hd : PivotContract draw) (hs : size ≤ n)
    {f : Fin size → Fin n} {state : Fin n → Ext ℝ}
    (hf : rpcReduce Real.sqrt k x unique draw size none = .ok (⟨fun t => ((f t : ℕ) : ℤ), fun _ => 1⟩, state)) :
    StrictPD k 0 (fun t => x (f t)) ↔ size ≤ (Matrix.of fun i j => k (x i) (x j)).rank := by
  rw [Quadrature.strictPD_iff hk x f]
  obtain ⟨c, state', A, hok, hA, hrank, -⟩ := C53_rank hk x unique draw hd hs
  rw [hf] at hok
  simp only [Except.ok.injEq, Prod.mk.injEq] at hok
  obtain ⟨rfl, rfl⟩ := hok
  have himg : (fun s l => k (x l) (x s)) '' {j : Fin n | ∃ t, ((f t : ℕ) : ℤ) = (j : ℤ)} = Set.range fun t l => k (x l) (x (f t)) := by
    ext v
    constructor
    · rintro ⟨j, ⟨t, ht⟩, rfl⟩
      have : f t = j := Fin.ext (by exact_mod_cast ht)
      exact ⟨t, by subst this; rfl⟩
    · rintro ⟨t, rfl⟩
      exact ⟨f t, ⟨t, rfl⟩, rfl⟩
  constructor
  · intro h
    have h1 := linearIndependent_iff_card_le_finrank_span.1 h
    rw [Fintype.card_fin] at h1
    refine h1.trans ?_
    unfold Set.finrank Matrix.rank
    refine Submodule.finrank_mono (Submodule.span_le.2 ?_)
    rintro _ ⟨t, rfl⟩
    refine ⟨Pi.single (f t) 1, ?_⟩
    rw [Matrix.mulVecLin_apply, Matrix.mulVec_single_one]
    rfl
  · intro h
    rw [linearIndependent_iff_card_le_finrank_span, Fintype.card_fin]
    have hsum : (Matrix.of fun i j => k (x i) (x j)).rank ≤ (Matrix.of A).rank + (Matrix.of fun i j => k (x i) (x j) - A i j).rank := by
      have e : (Matrix.of fun i j => k (x i) (x j)) = Matrix.of A + Matrix.of fun i j => k (x i) (x j) - A i j := by
        ext i j; simp
      rw [e]
      unfold Matrix.rank
      rw [Matrix.mulVecLin_add]
      refine (Submodule.finrank_mono (LinearMap.range_add_le _ _)).trans (Submodule.finrank_add_le_finrank_add_finrank _ _)
    have hA' : (Matrix.of A).rank ≤ Set.finrank ℝ (Set.range fun t l => k (x l) (x (f t))) := by
      unfold Set.finrank Matrix.rank
      refine Submodule.finrank_mono ?_
      rintro _ ⟨v, rfl⟩
      rw [Matrix.mulVecLin_apply]
      have e : (Matrix.of A).mulVec v = ∑ j, v j • fun l => A l j := by
        funext l
        simp only [Matrix.mulVec, dotProduct, Matrix.of_apply, Finset.sum_apply, Pi.smul_apply, smul_eq_mul]
        exact Finset.sum_congr rfl fun j _ => mul_comm _ _
      rw [e, ← himg]
      exact Submodule.sum_mem _ fun j _ => Submodule.smul_mem _ _ (hA.span j)
    omega

section weights
variable {Y : Type} [Zero X]

/-- The simplex weights of an unweighted dataset. -/
theorem Quadrature.uniform_onSimplex : OnSimplex (fun _ : Fin n => 1 / (n : ℝ)) := by
  have hn : (n : ℝ) ≠ 0 := by exact_mod_cast NeZero.ne n
  refine ⟨fun _ => by positivity, ?_⟩
  rw [Finset.sum_const, Finset.card_univ, Fintype.card_fin, nsmul_eq_mul]
  field_simp

/-- C75: randomly pivoted Cholesky followed by unregularised quadrature weights. The squared distance to the kernel mean of the data is
the mean entry of what the Nyström approximation leaves over, hence at most the mean of its diagonal; no weights on these points do
better, and with as many points as the rank the kernel mean is matched exactly. -/
theorem C75_sbq (solve : LinSolve ℝ) (hsolve : SolveContract solve) (big : ℝ) (hk : IsPSD k) (x : Fin n → X) (unique : Bool)
    (draw : PivotDraw n ℝ) (hd : PivotContract draw) (hs : size ≤ n) (hpos : 0 < size)
    (hr : size ≤ (Matrix.of fun i j => k (x i) (x j)).rank) (bs : PyTree (Option ℤ)) (hbs : ValidBlock bs) :
    ∃ (f : Fin size → Fin n) (state : Fin n → Ext ℝ) (A : Fin n → Fin n → ℝ) (v : Fin size → ℝ),
      rpcReduce Real.sqrt k x unique draw size none = .ok (⟨fun t => ((f t : ℕ) : ℤ), fun _ => 1⟩, state) ∧
      sbqSolve (Y := Y) solve big k ⟨Data.ofArray x, none⟩ ⟨⟨fun t => x (f t), fun _ => 1⟩, none⟩ 0 bs = .ok v ∧
      IsNystrom (fun i j => k (x i) (x j)) {j | ∃ t, ((f t : ℕ) : ℤ) = (j : ℤ)} A ∧
      distSq k x (fun _ => 1 / (n : ℝ)) (fun t => x (f t)) v = (∑ i, ∑ j, (k (x i) (x j) - A i j)) / (n : ℝ) ^ 2 ∧
      distSq k x (fun _ => 1 / (n : ℝ)) (fun t => x (f t)) v ≤ (∑ j, (k (x j) (x j) - A j j)) / n ∧
      (∀ u : Fin size → ℝ, u ≠ v → distSq k x (fun _ => 1 / (n : ℝ)) (fun t => x (f t)) v < distSq k x (fun _ => 1 / (n : ℝ)) (fun t => x (f t)) u) ∧
      ((Matrix.of fun i j => k (x i) (x j)).rank = size → distSq k x (fun _ => 1 / (n : ℝ)) (fun t => x (f t)) v = 0) := by
  obtain ⟨f, state, A, hf, hA, hbest⟩ := C75_best_weights hk x unique draw hd hs
  have hpd := (C75_invertible hk x unique draw hd hs hf).2 hr
  obtain ⟨v, hv, hopt⟩ := C30_optimal (Y := Y) solve hsolve big k hk.1 (NeZero.pos n) hpos ⟨Data.ofArray x, none⟩
    ⟨⟨fun t => x (f t), fun _ => 1⟩, none⟩ rfl rfl 0 bs hbs hpd
  simp only [zero_mul, add_zero] at hopt
  obtain ⟨⟨⟨u, hu⟩, hlow⟩, hdiag⟩ := hbest (fun _ => 1 / (n : ℝ))
  have huv : u = v := by
    by_contra hne
    have h1 := hopt u hne
    have h2 := hlow ⟨v, rfl⟩
    simp only at hu h2
    rw [← hu] at h2
    exact absurd h1 (not_lt.2 h2)
  subst huv
  simp only at hu
  have hform : ∑ i, ∑ j, 1 / (n : ℝ) * (1 / (n : ℝ)) * (k (x i) (x j) - A i j) = (∑ i, ∑ j, (k (x i) (x j) - A i j)) / (n : ℝ) ^ 2 := by
    simp only [← Finset.mul_sum]
    ring
  have heq : distSq k x (fun _ => 1 / (n : ℝ)) (fun t => x (f t)) u = (∑ i, ∑ j, (k (x i) (x j) - A i j)) / (n : ℝ) ^ 2 := by
    rw [← hform]; exact hu
  refine ⟨f, state, A, u, hf, hv, hA, heq, ?_, hopt, fun hrk => ?_⟩
  · rw [hu]
    refine (hdiag Quadrature.uniform_onSimplex).trans_eq ?_
    rw [← Finset.mul_sum]
    ring
  · obtain ⟨c, state', A', hok, hA', -, hex⟩ := C53_rank hk x unique draw hd hs
    rw [hf] at hok
    simp only [Except.ok.injEq, Prod.mk.injEq] at hok
    obtain ⟨rfl, rfl⟩ := hok
    have e := C16_nystrom_unique k hk x _ A A' hA hA'
    have e' := hex.2 hrk.le
    rw [heq, e, e']
    simp

/-- C75: with regularisation `eps` there are weights whatever the rank. Their squared distance exceeds the best possible one by at most `eps`
times the sum of squares of the weights that are best without regularisation. -/
theorem C75_regularised (solve : LinSolve ℝ) (hsolve : SolveContract solve) (big : ℝ) (hk : IsPSD k) (x : Fin n → X) (unique : Bool)
    (draw : PivotDraw n ℝ) (hd : PivotContract draw) (hs : size ≤ n) (hpos : 0 < size) (eps : ℝ) (heps : 0 < eps)
    (bs : PyTree (Option ℤ)) (hbs : ValidBlock bs) :
    ∃ (f : Fin size → Fin n) (state : Fin n → Ext ℝ) (A : Fin n → Fin n → ℝ) (u v : Fin size → ℝ),
      rpcReduce Real.sqrt k x unique draw size none = .ok (⟨fun t => ((f t : ℕ) : ℤ), fun _ => 1⟩, state) ∧
      sbqSolve (Y := Y) solve big k ⟨Data.ofArray x, none⟩ ⟨⟨fun t => x (f t), fun _ => 1⟩, none⟩ eps bs = .ok v ∧
      IsNystrom (fun i j => k (x i) (x j)) {j | ∃ t, ((f t : ℕ) : ℤ) = (j : ℤ)} A ∧
      (∀ u', distSq k x (fun _ => 1 / (n : ℝ)) (fun t => x (f t)) u ≤ distSq k x (fun _ => 1 / (n : ℝ)) (fun t => x (f t)) u') ∧
      distSq k x (fun _ => 1 / (n : ℝ)) (fun t => x (f t)) u ≤ (∑ j, (k (x j) (x j) - A j j)) / n ∧
      distSq k x (fun _ => 1 / (n : ℝ)) (fun t => x (f t)) v + eps * ∑ t, v t ^ 2
        ≤ distSq k x (fun _ => 1 / (n : ℝ)) (fun t => x (f t)) u + eps * ∑ t, u t ^ 2 := by
  obtain ⟨f, state, A, hf, hA, hbest⟩ := C75_best_weights hk x unique draw hd hs
  have hpd : StrictPD k eps (fun t => x (f t)) := by
    rintro v ⟨i, hi⟩
    refine add_pos_of_nonneg_of_pos (hk.2 size (fun t => x (f t)) v) (mul_pos heps ?_)
    exact Finset.sum_pos' (fun t _ => sq_nonneg _) ⟨i, Finset.mem_univ i, by positivity⟩
  obtain ⟨v, hv, hopt⟩ := C30_optimal (Y := Y) solve hsolve big k hk.1 (NeZero.pos n) hpos ⟨Data.ofArray x, none⟩
    ⟨⟨fun t => x (f t), fun _ => 1⟩, none⟩ rfl rfl eps bs hbs hpd
  obtain ⟨⟨⟨u, hu⟩, hlow⟩, hdiag⟩ := hbest (fun _ => 1 / (n : ℝ))
  simp only at hu
  refine ⟨f, state, A, u, v, hf, hv, hA, fun u' => ?_, ?_, ?_⟩
  · rw [hu]
    exact hlow ⟨u', rfl⟩
  · rw [hu]
    refine (hdiag Quadrature.uniform_onSimplex).trans_eq ?_
    rw [← Finset.mul_sum]
    ring
  · by_cases h : u = v
    · rw [h]
    · exact (hopt u h).le

/-- C75: on average over the keys, the squared distance of the quadrature on randomly pivoted points is at most `(1 + ε) / n` times the error of any
matrix of rank `r` below the Gram matrix, once there are `r / ε + r log (trace / (ε η))` points. -/
theorem C75_expected {U : Type} [MeasurableSpace U] {μ : Measure U} [IsProbabilityMeasure μ] {D : U → (Fin n → Ext ℝ) → ℤ} (hD : PivotLaw μ D)
    (solve : LinSolve ℝ) (hsolve : SolveContract solve) (big : ℝ) (hk : IsPSD k) (x : Fin n → X) (unique : Bool) (hs : size ≤ n) (hpos : 0 < size)
    (hr : size ≤ (Matrix.of fun i j => k (x i) (x j)).rank) (bs : PyTree (Option ℤ)) (hbs : ValidBlock bs) :
    ∃ err : (Fin size → U) → ℝ, Integrable err (Measure.pi fun _ => μ) ∧
      (∀ ω, ∃ (f : Fin size → Fin n) (state : Fin n → Ext ℝ) (v : Fin size → ℝ),
        rpcReduce Real.sqrt k x unique (drawOf D ω) size none = .ok (⟨fun t => ((f t : ℕ) : ℤ), fun _ => 1⟩, state) ∧
        sbqSolve (Y := Y) solve big k ⟨Data.ofArray x, none⟩ ⟨⟨fun t => x (f t), fun _ => 1⟩, none⟩ 0 bs = .ok v ∧
        distSq k x (fun _ => 1 / (n : ℝ)) (fun t => x (f t)) v ≤ err ω) ∧
      ∀ (B : Fin n → Fin n → ℝ) (r : ℕ) (ε : ℝ), (Matrix.of B).rank ≤ r → NonnegForm (fun i j => k (x i) (x j) - B i j) → 0 < ε →
        0 < ∑ j, (k (x j) (x j) - B j j) →
        r / ε + r * Real.log ((∑ j, k (x j) (x j)) / (ε * ∑ j, (k (x j) (x j) - B j j))) ≤ size →
        ∫ ω, err ω ∂(Measure.pi fun _ => μ) ≤ (1 + ε) / n * ∑ j, (k (x j) (x j) - B j j) := by
  obtain ⟨err, h1, h2, h3⟩ := C53_best_rank (size := size) x unique hD hk hs
  refine ⟨fun ω => err ω / n, h1.div_const _, fun ω => ?_, fun B r ε hB hp hε hη hT => ?_⟩
  · obtain ⟨f, state, A, v, hf, hv, hA, -, hle, -, -⟩ := C75_sbq (Y := Y) solve hsolve big hk x unique (drawOf D ω) (drawOf_contract hD ω) hs hpos hr bs hbs
    obtain ⟨c, state', A', hok, hA', he⟩ := h2 ω
    rw [hf] at hok
    simp only [Except.ok.injEq, Prod.mk.injEq] at hok
    obtain ⟨rfl, rfl⟩ := hok
    have e := C16_nystrom_unique k hk x _ A A' hA hA'
    refine ⟨f, state, v, hf, hv, ?_⟩
    beta_reduce
    rw [he, ← e]
    exact hle
  · rw [integral_div]
    have := h3 B r ε hB hp hε hη hT
    have hn : (0 : ℝ) < n := by exact_mod_cast NeZero.pos n
    rw [div_le_iff₀ hn]
    refine this.trans_eq ?_
    field_simp

/-- Cauchy–Schwarz: the error of a quadrature rule on a combination of kernel functions. -/
theorem Quadrature.integration_error (hk : IsPSD k) {m l : ℕ} (x : Fin n → X) (w : Fin n → ℝ) (y : Fin m → X) (v : Fin m → ℝ) (z : Fin l → X) (a : Fin l → ℝ) :
    (∑ i, w i * ∑ b, a b * k (z b) (x i) - ∑ t, v t * ∑ b, a b * k (z b) (y t)) ^ 2
      ≤ (∑ b, ∑ c, a b * a c * k (z b) (z c)) * distSq k x w y v := by
  obtain ⟨H, _, _, φ, hφ⟩ := hk.exists_feature
  have e1 : ∑ i, w i * ∑ b, a b * k (z b) (x i) - ∑ t, v t * ∑ b, a b * k (z b) (y t)
      = inner ℝ (∑ b, a b • φ (z b)) (∑ i, w i • φ (x i) - ∑ t, v t • φ (y t)) := by
    simp only [inner_sub_right, sum_inner, inner_sum, inner_smul_left, inner_smul_right, RCLike.conj_to_real, hφ]
  have e2 : ∑ b, ∑ c, a b * a c * k (z b) (z c) = ‖∑ b, a b • φ (z b)‖ ^ 2 := by
    rw [← real_inner_self_eq_norm_sq]
    simp only [sum_inner, inner_sum, inner_smul_left, inner_smul_right, RCLike.conj_to_real, hφ]
    refine Finset.sum_congr rfl fun b _ => ?_
    rw [Finset.mul_sum]
    exact Finset.sum_congr rfl fun c _ => by rw [real_inner_comm]; ring
  have e3 : distSq k x w y v = ‖∑ i, w i • φ (x i) - ∑ t, v t • φ (y t)‖ ^ 2 := by
    rw [norm_sub_sq_real, ← real_inner_self_eq_norm_sq, ← real_inner_self_eq_norm_sq]
    simp only [sum_inner, inner_sum, inner_smul_left, inner_smul_right, RCLike.conj_to_real, ← hφ]
    unfold distSq
    have r1 : ∀ {p : ℕ} (u : Fin p → ℝ) (q : Fin p → X), ∑ i, u i * ∑ j, u j * k (q j) (q i) = ∑ i, ∑ j, u i * u j * k (q i) (q j) := by
      intro p u q
      refine Finset.sum_congr rfl fun i _ => ?_
      rw [Finset.mul_sum]
      exact Finset.sum_congr rfl fun j _ => by rw [hk.1]; ring
    have r2 : ∑ t, v t * ∑ i, w i * k (x i) (y t) = ∑ i, ∑ j, w i * v j * k (x i) (y j) := by
      rw [Finset.sum_comm]
      refine Finset.sum_congr rfl fun t _ => ?_
      rw [Finset.mul_sum]
      exact Finset.sum_congr rfl fun i _ => by ring
    rw [r1, r1, r2]
  rw [e1, e2, e3, ← mul_pow, ← sq_abs]
  exact pow_le_pow_left₀ (abs_nonneg _) (abs_real_inner_le_norm _ _) 2

/-- C75: integration with the selected points and the unregularised weights. For every combination `g` of kernel functions the squared error of the weighted sum
against the mean of `g` over the data is at most the squared norm of `g` times the mean of the residual diagonal. -/
theorem C75_integration (solve : LinSolve ℝ) (hsolve : SolveContract solve) (big : ℝ) (hk : IsPSD k) (x : Fin n → X) (unique : Bool)
    (draw : PivotDraw n ℝ) (hd : PivotContract draw) (hs : size ≤ n) (hpos : 0 < size)
    (hr : size ≤ (Matrix.of fun i j => k (x i) (x j)).rank) (bs : PyTree (Option ℤ)) (hbs : ValidBlock bs) :
    ∃ (f : Fin size → Fin n) (state : Fin n → Ext ℝ) (A : Fin n → Fin n → ℝ) (v : Fin size → ℝ),
      rpcReduce Real.sqrt k x unique draw size none = .ok (⟨fun t => ((f t : ℕ) : ℤ), fun _ => 1⟩, state) ∧
      sbqSolve (Y := Y) solve big k ⟨Data.ofArray x, none⟩ ⟨⟨fun t => x (f t), fun _ => 1⟩, none⟩ 0 bs = .ok v ∧
      IsNystrom (fun i j => k (x i) (x j)) {j | ∃ t, ((f t : ℕ) : ℤ) = (j : ℤ)} A ∧
      ∀ (l : ℕ) (z : Fin l → X) (a : Fin l → ℝ), let g := fun p => ∑ b, a b * k (z b) p
        ((∑ i, g (x i)) / n - ∑ t, v t * g (x (f t))) ^ 2 ≤ (∑ b, ∑ c, a b * a c * k (z b) (z c)) * ((∑ j, (k (x j) (x j) - A j j)) / n) := by
  obtain ⟨f, state, A, v, hf, hv, hA, -, hle, -, -⟩ := C75_sbq (Y := Y) solve hsolve big hk x unique draw hd hs hpos hr bs hbs
  refine ⟨f, state, A, v, hf, hv, hA, fun l z a => ?_⟩
  have h := Quadrature.integration_error hk x (fun _ => 1 / (n : ℝ)) (fun t => x (f t)) v z a
  have e : ∑ i, 1 / (n : ℝ) * ∑ b, a b * k (z b) (x i) = (∑ i, ∑ b, a b * k (z b) (x i)) / n := by
    rw [← Finset.mul_sum]; ring
  rw [e] at h
  exact h.trans (mul_le_mul_of_nonneg_left hle (hk.2 l z a))

end weights

end

/-! ### Cases -/

/-- The kernel that tells points apart. -/
theorem Quadrature.isPSD_delta {m : ℕ} : IsPSD (fun a b : Fin m => if a = b then (1 : ℝ) else 0) :=
  (isPSD_of_feature fun a : Fin m => EuclideanSpace.single a (1 : ℝ)).congr fun a b => by
    simp [EuclideanSpace.inner_single_left, Pi.single_apply]

theorem Quadrature.rank_delta {m : ℕ} : (Matrix.of fun i j : Fin m => if (id i : Fin m) = id j then (1 : ℝ) else 0).rank = m := by
  have : (Matrix.of fun i j : Fin m => if (id i : Fin m) = id j then (1 : ℝ) else 0) = 1 := by
    ext i j; simp [Matrix.one_apply]
  rw [this, Matrix.rank_one, Fintype.card_fin]

example := C75_best_weights (size := 2) ((isPSD_rankOne fun x : ℝ => x).add (isPSD_const zero_le_one)) (![1, 2, 3] : Fin 3 → ℝ) true
  (fun _ p => nanargmax p) pivotContract_greedy (by norm_num)

example : ∃ f : Fin 2 → Fin 3, ∃ state, rpcReduce Real.sqrt (fun a b : Fin 3 => if a = b then (1 : ℝ) else 0) id true (fun _ p => nanargmax p) 2 none
      = .ok (⟨fun t => ((f t : ℕ) : ℤ), fun _ => 1⟩, state) ∧ StrictPD (fun a b : Fin 3 => if a = b then (1 : ℝ) else 0) 0 (fun t => (id (f t) : Fin 3)) := by
  obtain ⟨f, state, A, hf, -, -⟩ := C75_best_weights (size := 2) Quadrature.isPSD_delta (id : Fin 3 → Fin 3) true (fun _ p => nanargmax p) pivotContract_greedy (by norm_num)
  exact ⟨f, state, hf, (C75_invertible Quadrature.isPSD_delta id true _ pivotContract_greedy (by norm_num) hf).2 (by rw [Quadrature.rank_delta]; norm_num)⟩

/-- Two of three orthogonal points: the weights leave a squared error of at most a third. -/
example : ∃ (solve : LinSolve ℝ) (f : Fin 2 → Fin 3) (v : Fin 2 → ℝ), Function.Injective f ∧
    distSq (fun a b : Fin 3 => if a = b then (1 : ℝ) else 0) id (fun _ => 1 / ((3 : ℕ) : ℝ)) (fun t => id (f t)) v ≤ 1 / 3 := by
  obtain ⟨solve, hs⟩ := exists_solve (K := ℝ)
  obtain ⟨f, state, A, v, hf, -, hA, -, hle, -, -⟩ := C75_sbq (Y := Unit) (size := 2) solve hs 1000 Quadrature.isPSD_delta (id : Fin 3 → Fin 3) true
    (fun _ p => nanargmax p) pivotContract_greedy (by norm_num) (by norm_num) (by rw [Quadrature.rank_delta]; norm_num) (.leaf none) (.inl rfl)
  obtain ⟨f', state', hinj, hf'⟩ := C16_distinct (size := 2) Real.sqrt (fun a b : Fin 3 => if a = b then (1 : ℝ) else 0) id (fun j => by simp) true
    (fun _ p => nanargmax p) pivotContract_greedy (by norm_num)
  rw [hf] at hf'
  simp only [Except.ok.injEq, Prod.mk.injEq] at hf'
  have hff : f = f' := by
    funext t
    have : ((f t : ℕ) : ℤ) = ((f' t : ℕ) : ℤ) := congrArg (fun d : Data 2 ℤ ℝ => d.data t) hf'.1
    exact Fin.ext (by exact_mod_cast this)
  have hi : Function.Injective f := hff ▸ hinj rfl
  refine ⟨solve, f, v, hi, hle.trans ?_⟩
  have hnn : ∀ j, (if (id j : Fin 3) = id j then (1 : ℝ) else 0) - A j j ≤ if j = f 0 ∨ j = f 1 then 0 else 1 := by
    intro j
    have hpos : 0 ≤ A j j := by
      obtain ⟨A', hA', -, h⟩ := C16_nystrom _ Quadrature.isPSD_delta id true (fun _ p => nanargmax p) pivotContract_greedy hf
      rw [C16_nystrom_unique _ Quadrature.isPSD_delta id _ A A' hA hA']
      rcases h with h | h
      · have := (C16_residual Real.sqrt _ id (fun j => by simp) true (fun _ p => nanargmax p) pivotContract_greedy hf j _ (h j)).2.1
        linarith
      · rw [h]; simp
    by_cases h : j = f 0 ∨ j = f 1
    · have hm : j ∈ {j : Fin 3 | ∃ t, ((f t : ℕ) : ℤ) = (j : ℤ)} := by
        rcases h with h | h
        · exact ⟨0, by rw [h]⟩
        · exact ⟨1, by rw [h]⟩
      rw [if_pos h, hA.exact j hm j]
      simp
    · rw [if_neg h]
      simp only [if_true]
      linarith
  have hsum : ∑ j : Fin 3, ((if (id j : Fin 3) = id j then (1 : ℝ) else 0) - A j j) ≤ 1 := by
    refine (Finset.sum_le_sum fun j _ => hnn j).trans ?_
    have h01 : f 0 ≠ f 1 := fun h => absurd (hi h) (by decide)
    have hc : ∀ p q : Fin 3, p ≠ q → (Finset.univ.filter fun j => ¬ (j = p ∨ j = q)).card ≤ 1 := by decide
    have e : ∑ j, (if j = f 0 ∨ j = f 1 then (0 : ℝ) else 1) = ((Finset.univ.filter fun j => ¬ (j = f 0 ∨ j = f 1)).card : ℝ) := by
      rw [Finset.card_filter, Nat.cast_sum]
      exact Finset.sum_congr rfl fun j _ => by by_cases h : j = f 0 ∨ j = f 1 <;> simp [h]
    rw [e]
    exact_mod_cast hc _ _ h01
  rw [Nat.cast_ofNat]
  exact div_le_div_of_nonneg_right hsum (by norm_num)

example (solve : LinSolve ℝ) (hs : SolveContract solve) := C75_regularised (Y := Unit) (size := 2) solve hs 1000 (isPSD_rankOne fun x : ℝ => x) (![1, 2, 3] : Fin 3 → ℝ) true
  (fun _ p => nanargmax p) pivotContract_greedy (by norm_num) (by norm_num) (1 / 10) (by norm_num) (.leaf none) (.inl rfl)

example (solve : LinSolve ℝ) (hs : SolveContract solve) := C75_integration (Y := Unit) (size := 2) solve hs 1000 Quadrature.isPSD_delta (id : Fin 3 → Fin 3) true
  (fun _ p => nanargmax p) pivotContract_greedy (by norm_num) (by norm_num) (by rw [Quadrature.rank_delta]; norm_num) (.leaf none) (.inl rfl)

/-- Two of four orthogonal points against matrices of rank one: see the example of `C53_best_rank` for such a matrix. -/
example (solve : LinSolve ℝ) (hs : SolveContract solve) := C75_expected (Y := Unit) (size := 2) (pivotLaw_inverse (n := 4)) solve hs 1000 Quadrature.isPSD_delta (id : Fin 4 → Fin 4) true
  (by norm_num) (by norm_num) (by rw [Quadrature.rank_delta]; norm_num) (.leaf none) (.inl rfl)

end Coreax
