import Verif.Props.PivotRate
import Verif.Lemmas.PSD
import Mathlib.LinearAlgebra.Matrix.Rank
import Mathlib.LinearAlgebra.Finsupp.LinearCombination

/-!
# C53: randomly pivoted Cholesky is exact from the rank on, in every execution
-/

set_option linter.unusedSectionVars false

namespace Coreax

open Spec

section
variable {n : ℕ} [NeZero n]

/-- Eliminating a positive pivot lowers the rank by exactly one. -/
theorem rank_pivotOut {R : Fin n → Fin n → ℝ} (hs : ∀ i j, R i j = R j i) {p : Fin n} (hp : 0 < R p p) :
    (Matrix.of (pivotOut R p)).rank + 1 = (Matrix.of R).rank := by
  have hle : (Matrix.of R).rank ≤ (Matrix.of (pivotOut R p)).rank + 1 := by
    have h : Matrix.of R = Matrix.of (pivotOut R p) + Matrix.vecMulVec (fun i => R i p) (fun j => R j p / R p p) := by
      ext i j
      simp only [Matrix.of_apply, Matrix.add_apply, Matrix.vecMulVec_apply, pivotOut]
      ring
    refine le_trans ?_ (Nat.add_le_add_left (Matrix.rank_vecMulVec_le (fun i => R i p) (fun j => R j p / R p p)) _)
    unfold Matrix.rank
    rw [h, Matrix.mulVecLin_add]
    exact (Submodule.finrank_mono (LinearMap.range_add_le _ _)).trans (Submodule.finrank_add_le_finrank_add_finrank _ _)
  have hlt : (Matrix.of (pivotOut R p)).rank < (Matrix.of R).rank := by
    have hker : LinearMap.ker (Matrix.of R).mulVecLin < LinearMap.ker (Matrix.of (pivotOut R p)).mulVecLin := by
      refine lt_of_le_of_ne (fun v hv => ?_) (fun heq => ?_)
      · rw [LinearMap.mem_ker, Matrix.mulVecLin_apply] at hv ⊢
        have hv' : ∀ i, ∑ j, R i j * v j = 0 := fun i => congrFun hv i
        funext i
        simp only [Matrix.mulVec, dotProduct, Matrix.of_apply, pivotOut, Pi.zero_apply, sub_mul, Finset.sum_sub_distrib, hv' i]
        have : ∑ j, R i p * R j p / R p p * v j = R i p / R p p * ∑ j, R p j * v j := by
          rw [Finset.mul_sum]
          refine Finset.sum_congr rfl fun j _ => ?_
          rw [hs p j]; ring
        rw [this, hv' p]
        ring
      · have h1 : Pi.single p (1 : ℝ) ∈ LinearMap.ker (Matrix.of (pivotOut R p)).mulVecLin := by
          rw [LinearMap.mem_ker, Matrix.mulVecLin_apply, Matrix.mulVec_single_one]
          funext i
          simp only [Matrix.col_apply, Matrix.of_apply, pivotOut, Pi.zero_apply]
          field_simp
          ring
        rw [← heq, LinearMap.mem_ker, Matrix.mulVecLin_apply, Matrix.mulVec_single_one] at h1
        exact hp.ne' (congrFun h1 p)
    have h1 := Submodule.finrank_lt_finrank_of_lt hker
    have e1 := LinearMap.finrank_range_add_finrank_ker (Matrix.of R).mulVecLin
    have e2 := LinearMap.finrank_range_add_finrank_ker (Matrix.of (pivotOut R p)).mulVecLin
    unfold Matrix.rank
    omega
  omega

variable {X : Type} {size : ℕ} {k : X → X → ℝ}

theorem pivots_of_contract (hk : IsPSD k) (x : Fin n → X) (unique : Bool) {draw : PivotDraw n ℝ} (hd : PivotContract draw)
    (hs : size ≤ n) :
    ∃ s : ℕ → Fin n, (∀ i : Fin size, (rpcLoop Real.sqrt k x unique draw size none (fun _ => (n : ℤ) + 1)).idx i = (s i : ℤ)) ∧
      ∀ i : Fin size, draw i (validResiduals (pst k x unique s i : RPCState n size ℝ)) = (s i : ℤ) := by
  obtain ⟨i, state, -, h⟩ := C16_distinct (size := size) Real.sqrt k x (fun j => by simpa using hk.2 1 (fun _ => x j) (fun _ => 1)) unique
    draw hd hs
  rw [rpcReduce_ok Real.sqrt k x unique draw hs] at h
  simp only [Except.ok.injEq, Prod.mk.injEq] at h
  have h1 : ∀ t : Fin size, (rpcLoop Real.sqrt k x unique draw size none (fun _ => (n : ℤ) + 1)).idx t = (extend i t : ℤ) := by
    intro t
    have := congrArg (fun d : Data size ℤ ℝ => d.data t) h.1
    simpa [extend] using this
  exact ⟨extend i, h1, (run_iff k x unique draw (extend i)).1 h1⟩

/-- In every execution each selected point lowers the rank of what the Nyström approximation leaves over by exactly one, until
nothing is left: after `size` points the rank is that of the Gram matrix minus `size`.  So the approximation is exact if and
only if the rank of the Gram matrix is at most the coreset size, whatever the draws. -/
theorem C53_rank (hk : IsPSD k) (x : Fin n → X) (unique : Bool) (draw : PivotDraw n ℝ) (hd : PivotContract draw) (hs : size ≤ n) :
    ∃ c state A, rpcReduce Real.sqrt k x unique draw size none = .ok (c, state) ∧
      IsNystrom (fun i j => k (x i) (x j)) {j | ∃ t, c.data t = (j : ℤ)} A ∧
      (Matrix.of fun i j => k (x i) (x j) - A i j).rank = (Matrix.of fun i j => k (x i) (x j)).rank - size ∧
      ((A = fun i j => k (x i) (x j)) ↔ (Matrix.of fun i j => k (x i) (x j)).rank ≤ size) := by
  obtain ⟨s, hidx, hrun⟩ := pivots_of_contract hk x unique hd hs
  have hok := rpcReduce_ok Real.sqrt k x unique draw hs none
  obtain ⟨A, hA, -⟩ := C16_nystrom k hk x unique draw hd hok
  have hgood : ∀ i, i ≤ size → Good k x unique i (pst k x unique s i : RPCState n size ℝ) (resid (fun a b => k (x a) (x b)) s i) := by
    intro i
    induction i with
    | zero => exact fun _ => good_init k x unique hk
    | succ i ih =>
      intro hi
      have hdi := hrun ⟨i, by omega⟩
      have := good_step k x unique hk hs hd (i := ⟨i, by omega⟩) (ih (by omega)) hdi
      rw [pst, stepTo, dif_pos (by omega), resid]
      rwa [rpcBody_forced k x unique hdi] at this
  have hpsd := fun i => resid_psd (G := fun a b => k (x a) (x b)) (fun c => by simpa using hk.2 n x c) (fun a b => hk.1 _ _) s i
  have hrank : ∀ i, i ≤ size → (Matrix.of (resid (fun a b => k (x a) (x b)) s i)).rank
      = (Matrix.of fun a b => k (x a) (x b)).rank - i := by
    intro i
    induction i with
    | zero => exact fun _ => rfl
    | succ i ih =>
      intro hi
      have ih := ih (by omega)
      by_cases hT : 0 < trace (resid (fun a b => k (x a) (x b)) s i)
      · have hlive := good_live k x unique (hgood i (by omega)) hT
        have hdi := hrun ⟨i, by omega⟩
        have hpos : 0 < resid (fun a b => k (x a) (x b)) s i (s i) (s i) := by
          have hnn : ∀ j, 0 ≤ resid (fun a b => k (x a) (x b)) s i j j := fun j => by
            have := (hpsd i).1 (Pi.single j 1)
            simpa [Pi.single_apply] using this
          obtain ⟨j, -, hj⟩ := Finset.exists_lt_of_sum_lt (s := Finset.univ) (f := fun _ => (0 : ℝ))
            (g := fun j => resid (fun a b => k (x a) (x b)) s i j j) (by simpa [trace] using hT)
          obtain ⟨p, v, hp, hv, hpv⟩ := hd i (validResiduals (pst k x unique s i : RPCState n size ℝ))
            (fun j => ⟨_, hnn j, by rw [hlive]⟩) ⟨j, _, hj, by rw [hlive]⟩
          rw [hlive] at hpv
          have hps : p = s i := by
            rw [show draw i (validResiduals (pst k x unique s i : RPCState n size ℝ)) = (s i : ℤ) from hdi] at hp
            exact Fin.ext (by exact_mod_cast hp.symm)
          subst hps
          have : resid (fun a b => k (x a) (x b)) s i (s i) (s i) = v := by simpa using hpv
          rw [this]
          exact hv
        have := rank_pivotOut (hpsd i).2 hpos
        rw [resid]
        omega
      · have h0 : trace (resid (fun a b => k (x a) (x b)) s i) = 0 := by
          refine le_antisymm (not_lt.1 hT) (Finset.sum_nonneg fun j _ => ?_)
          have := (hpsd i).1 (Pi.single j 1)
          simpa [Pi.single_apply] using this
        have hz := eq_zero_of_trace (hpsd i).1 (hpsd i).2 h0
        rw [resid, hz, pivotOut_zero]
        rw [hz] at ih
        have hr0 : (Matrix.of fun (_ _ : Fin n) => (0 : ℝ)).rank = 0 := Matrix.rank_zero
        rw [hr0] at ih ⊢
        omega
  have hlast : ∀ i j, k (x i) (x j) - A i j = resid (fun a b => k (x a) (x b)) s size i j := by
    refine fun i j => good_nystrom k x unique hk (hgood size le_rfl) ?_ i j
    have hsel : {j : Fin n | ∃ t, (pst k x unique s size : RPCState n size ℝ).idx t = (j : ℤ)}
        = {j : Fin n | ∃ t, (rpcLoop Real.sqrt k x unique draw size none (fun _ => (n : ℤ) + 1)).idx t = (j : ℤ)} := by
      have h1 := (run_iff k x unique (fun i _ => ((s i : Fin n) : ℤ)) s (size := size)).2 (fun i => rfl)
      have h2 : ∀ i, i ≤ size → (dst k x unique (fun i _ => ((s i : Fin n) : ℤ)) i : RPCState n size ℝ) = pst k x unique s i := by
        intro i
        induction i with
        | zero => intro _; rfl
        | succ i ih =>
          intro hi
          rw [dst, dif_pos (show i < size by omega), pst, stepTo, dif_pos (show i < size by omega), ih (by omega)]
          exact rpcBody_forced k x unique rfl
      rw [rpcLoop_eq_dst, h2 size le_rfl] at h1
      simp only [h1, hidx]
    rw [hsel]
    exact hA
  have hleft : (Matrix.of fun i j => k (x i) (x j) - A i j).rank = (Matrix.of fun i j => k (x i) (x j)).rank - size := by
    rw [← hrank size le_rfl]
    congr 1
    ext i j
    exact hlast i j
  refine ⟨_, _, A, hok, hA, hleft, fun h => ?_, fun h => ?_⟩
  · have h0 : (Matrix.of fun i j => k (x i) (x j) - A i j) = 0 := by
      ext i j; simp [h]
    rw [h0, Matrix.rank_zero] at hleft
    omega
  · rw [Nat.sub_eq_zero_of_le h] at hleft
    have h0 := LinearMap.range_eq_bot.1 (Submodule.finrank_eq_zero.1 hleft)
    funext i j
    have := congrFun (LinearMap.congr_fun h0 (Pi.single j 1)) i
    simp only [Matrix.mulVecLin_apply, Matrix.mulVec_single_one, Matrix.col_apply, Matrix.of_apply, LinearMap.zero_apply,
      Pi.zero_apply] at this
    linarith

/-- From the rank on, the selected points carry all kernel means: whatever the weights of the data, there are weights on the
coreset with the same kernel mean at every data point. -/
theorem C53_means (hk : IsPSD k) (x : Fin n → X) (unique : Bool) (draw : PivotDraw n ℝ) (hd : PivotContract draw) (hs : size ≤ n)
    (hr : (Matrix.of fun i j => k (x i) (x j)).rank ≤ size) :
    ∃ (f : Fin size → Fin n) (state : Fin n → Ext ℝ),
      rpcReduce Real.sqrt k x unique draw size none = .ok (⟨fun t => ((f t : ℕ) : ℤ), fun _ => 1⟩, state) ∧
      ∀ w : Fin n → ℝ, ∃ v : Fin size → ℝ, ∀ j, ∑ t, v t * k (x (f t)) (x j) = ∑ i, w i * k (x i) (x j) := by
  obtain ⟨f, state, -, hf⟩ := C16_distinct (size := size) Real.sqrt k x
    (fun j => by simpa using hk.2 1 (fun _ => x j) (fun _ => 1)) unique draw hd hs
  obtain ⟨c, state', A, hok, hA, -, hex⟩ := C53_rank hk x unique draw hd hs
  rw [hf] at hok
  simp only [Except.ok.injEq, Prod.mk.injEq] at hok
  obtain ⟨rfl, rfl⟩ := hok
  have hAK := hex.2 hr
  refine ⟨f, state, hf, fun w => ?_⟩
  have hspan : (∑ i, w i • fun l => k (x l) (x i)) ∈ columnSpan (fun i j => k (x i) (x j)) {j | ∃ t, ((f t : ℕ) : ℤ) = (j : ℤ)} := by
    refine Submodule.sum_mem _ fun i _ => Submodule.smul_mem _ _ ?_
    have := hA.span i
    simpa only [hAK] using this
  have himg : (fun s l => k (x l) (x s)) '' {j : Fin n | ∃ t, ((f t : ℕ) : ℤ) = (j : ℤ)} = Set.range fun t l => k (x l) (x (f t)) := by
    ext v
    constructor
    · rintro ⟨j, ⟨t, ht⟩, rfl⟩
      have : f t = j := Fin.ext (by exact_mod_cast ht)
      exact ⟨t, by subst this; rfl⟩
    · rintro ⟨t, rfl⟩
      exact ⟨f t, ⟨t, rfl⟩, rfl⟩
  rw [columnSpan, himg] at hspan
  obtain ⟨v, hv⟩ := (Submodule.mem_span_range_iff_exists_fun ℝ).1 hspan
  refine ⟨v, fun j => ?_⟩
  have := congrFun hv j
  simp only [Finset.sum_apply, Pi.smul_apply, smul_eq_mul] at this
  simp only [hk.1 _ (x j)]
  exact this

/-- Points on a line with a linear kernel: the Gram matrix has rank one, so one point is enough, whichever is drawn first. -/
example : (Matrix.of fun i j : Fin 3 => (![1, 2, 3] : Fin 3 → ℝ) i * (![1, 2, 3] : Fin 3 → ℝ) j).rank ≤ 1 :=
  Matrix.rank_vecMulVec_le (![1, 2, 3] : Fin 3 → ℝ) ![1, 2, 3]

example := C53_means (size := 1) (isPSD_rankOne fun x : ℝ => x) (![1, 2, 3] : Fin 3 → ℝ) true (fun _ p => nanargmax p)
  pivotContract_greedy (by norm_num) (Matrix.rank_vecMulVec_le (![1, 2, 3] : Fin 3 → ℝ) ![1, 2, 3])

example := C53_rank (size := 2) ((isPSD_rankOne fun x : ℝ => x).add (isPSD_const zero_le_one)) (![1, 2, 3] : Fin 3 → ℝ) true
  (fun _ p => nanargmax p) pivotContract_greedy (by norm_num)

end

end Coreax
