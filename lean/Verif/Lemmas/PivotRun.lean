import Verif.Lemmas.PivotTrace
import Verif.Props.Random
import Mathlib.MeasureTheory.Constructions.Pi
import Mathlib.MeasureTheory.Integral.Bochner.Set
import Mathlib.MeasureTheory.Integral.Bochner.SumMeasure
import Mathlib.Logic.Equiv.Fin.Basic

/-!
# Runs of randomly pivoted Cholesky with given pivots, and the residual matrix along them
-/

set_option linter.unusedSectionVars false

namespace Coreax

open Spec MeasureTheory

variable {X U : Type} {n size : ℕ} [NeZero n]

/-- What is assumed of the law of `jr.choice(key, n, (), p=p, replace=False)` (trusted): `U` is the randomness of one key. A draw picks an
element of positive weight; its law is proportional to the weights. -/
structure PivotLaw [MeasurableSpace U] (μ : Measure U) (D : U → (Fin n → Ext ℝ) → ℤ) : Prop where
  contract : ∀ u, PivotContract (fun _ => D u)
  meas : ∀ p (j : Fin n), MeasurableSet {u | D u p = (j : ℤ)}
  law : ∀ (v : Fin n → ℝ), (∀ j, 0 ≤ v j) → 0 < ∑ j, v j → ∀ j : Fin n, μ.real {u | D u (fun j => Ext.fin (v j)) = (j : ℤ)} = v j / ∑ j, v j

/-- The draws of one run: iteration `i` uses its own key (`jr.fold_in(self.random_key, i)`), with randomness `ω i`. -/
noncomputable def drawOf (D : U → (Fin n → Ext ℝ) → ℤ) (ω : Fin size → U) : PivotDraw n ℝ :=
  fun i p => if h : i < size then D (ω ⟨i, h⟩) p else nanargmax p

theorem drawOf_contract [MeasurableSpace U] {μ : Measure U} {D : U → (Fin n → Ext ℝ) → ℤ} (hD : PivotLaw μ D) (ω : Fin size → U) :
    PivotContract (drawOf D ω) := by
  intro i p h1 h2
  unfold drawOf
  split_ifs with h
  · exact hD.contract (ω ⟨i, h⟩) i p h1 h2
  · exact pivotContract_greedy i p h1 h2

section Run

variable (k : X → X → ℝ) (x : Fin n → X) (unique : Bool)

/-- One step with a given pivot. -/
noncomputable def stepTo (t : ℕ) (p : Fin n) (σ : RPCState n size ℝ) : RPCState n size ℝ :=
  if h : t < size then rpcBody Real.sqrt k x unique (fun _ _ => (p : ℤ)) ⟨t, h⟩ σ else σ

/-- The state after `i` steps with given pivots. -/
noncomputable def pst (s : ℕ → Fin n) : ℕ → RPCState n size ℝ
  | 0 => ⟨rpcDiagonal k x none, fun _ _ => Ext.fin 0, fun _ => (n : ℤ) + 1⟩
  | i + 1 => stepTo k x unique i (s i) (pst s i)

theorem pst_congr {s s' : ℕ → Fin n} {i : ℕ} (h : ∀ t, t < i → s t = s' t) :
    (pst k x unique s i : RPCState n size ℝ) = pst k x unique s' i := by
  induction i with
  | zero => rfl
  | succ i ih => rw [pst, pst, ih fun t ht => h t (by omega), h i (by omega)]

theorem rpcBody_forced {draw : PivotDraw n ℝ} {i : Fin size} {σ : RPCState n size ℝ} {p : Fin n} (hp : draw i (validResiduals σ) = p) :
    rpcBody Real.sqrt k x unique draw i σ = rpcBody Real.sqrt k x unique (fun _ _ => (p : ℤ)) i σ := by
  unfold rpcBody
  simp only [hp]

/-- The state after `i` steps of a run with draws. -/
noncomputable def dst (draw : PivotDraw n ℝ) : ℕ → RPCState n size ℝ
  | 0 => ⟨rpcDiagonal k x none, fun _ _ => Ext.fin 0, fun _ => (n : ℤ) + 1⟩
  | i + 1 => if h : i < size then rpcBody Real.sqrt k x unique draw ⟨i, h⟩ (dst draw i) else dst draw i

theorem forLoop_nat {σ : Type} (t m : ℕ) (hm : m ≤ t) (f : Fin t → σ → σ) (init : σ) (L : ℕ → σ) (h0 : L 0 = init)
    (hs : ∀ i (h : i < t), L (i + 1) = f ⟨i, h⟩ (L i)) : forLoop m (fun i => f (Fin.castLE hm i)) init = L m := by
  induction m with
  | zero => exact h0.symm
  | succ m ih => rw [hs m (by omega), ← ih (by omega)]; rfl

theorem rpcLoop_eq_dst (draw : PivotDraw n ℝ) :
    rpcLoop Real.sqrt k x unique draw size none (fun _ => (n : ℤ) + 1) = dst k x unique draw size := by
  unfold rpcLoop
  refine forLoop_nat size size le_rfl (rpcBody Real.sqrt k x unique draw) _ (dst k x unique draw) rfl fun i h => ?_
  rw [dst, dif_pos h]

theorem dst_idx (draw : PivotDraw n ℝ) (i : Fin size) (m : ℕ) (hm : (i : ℕ) < m) :
    (dst k x unique draw m : RPCState n size ℝ).idx i = draw i (validResiduals (dst k x unique draw i : RPCState n size ℝ)) := by
  induction m with
  | zero => omega
  | succ m ih =>
    rw [dst]
    by_cases hi : (i : ℕ) = m
    · subst hi
      rw [dif_pos i.2]
      simp [rpcBody]
    · have := ih (by omega)
      split_ifs with h
      · have hne : i ≠ ⟨m, h⟩ := fun hc => hi (by rw [hc])
        simp only [rpcBody, Function.update_of_ne hne]
        exact this
      · exact this

/-- The pivots of a run are `s` if and only if each draw along `s` gives the next element of `s`. -/
theorem run_iff (draw : PivotDraw n ℝ) (s : ℕ → Fin n) :
    (∀ i : Fin size, (rpcLoop Real.sqrt k x unique draw size none (fun _ => (n : ℤ) + 1)).idx i = (s i : ℤ)) ↔
      ∀ i : Fin size, draw i (validResiduals (pst k x unique s i : RPCState n size ℝ)) = (s i : ℤ) := by
  have hst : (∀ i : Fin size, draw i (validResiduals (dst k x unique draw i : RPCState n size ℝ)) = (s i : ℤ)) →
      ∀ i, i ≤ size → (dst k x unique draw i : RPCState n size ℝ) = pst k x unique s i := by
    intro h i
    induction i with
    | zero => intro _; rfl
    | succ i ih =>
      intro hi
      rw [dst, dif_pos (show i < size by omega), pst, stepTo, dif_pos (show i < size by omega), ih (by omega)]
      refine rpcBody_forced k x unique (p := s i) ?_
      have := h ⟨i, by omega⟩
      rwa [ih (by omega)] at this
  rw [rpcLoop_eq_dst]
  constructor
  · intro h i
    have h' : ∀ i : Fin size, draw i (validResiduals (dst k x unique draw i : RPCState n size ℝ)) = (s i : ℤ) := fun i => by
      rw [← dst_idx k x unique draw i size i.2]; exact h i
    rw [← hst h' i i.2.le]
    exact h' i
  · intro h
    have h2 : ∀ i, i ≤ size → (dst k x unique draw i : RPCState n size ℝ) = pst k x unique s i := by
      intro i
      induction i with
      | zero => intro _; rfl
      | succ i ih =>
        intro hi
        rw [dst, dif_pos (show i < size by omega), pst, stepTo, dif_pos (show i < size by omega), ih (by omega)]
        exact rpcBody_forced k x unique (h ⟨i, by omega⟩)
    intro i
    rw [dst_idx k x unique draw i size i.2, h2 i i.2.le]
    exact h i

/-- The residual matrix after `i` steps with given pivots. -/
noncomputable def resid (G : Fin n → Fin n → ℝ) (s : ℕ → Fin n) : ℕ → Fin n → Fin n → ℝ
  | 0 => G
  | i + 1 => pivotOut (resid G s i) (s i)

theorem resid_congr {G : Fin n → Fin n → ℝ} {s s' : ℕ → Fin n} {i : ℕ} (h : ∀ t, t < i → s t = s' t) : resid G s i = resid G s' i := by
  induction i with
  | zero => rfl
  | succ i ih => rw [resid, resid, ih fun t ht => h t (by omega), h i (by omega)]

theorem resid_psd {G : Fin n → Fin n → ℝ} (hG : NonnegForm G) (hs : ∀ i j, G i j = G j i) (s : ℕ → Fin n) (i : ℕ) :
    NonnegForm (resid G s i) ∧ ∀ a b, resid G s i a b = resid G s i b a := by
  induction i with
  | zero => exact ⟨hG, hs⟩
  | succ i ih => exact ⟨pivotOut_psd ih.1 ih.2 _, pivotOut_symm ih.2 _⟩

/-- What links the state to the residual matrix. -/
def Good (i : ℕ) (σ : RPCState n size ℝ) (R : Fin n → Fin n → ℝ) : Prop :=
  RPCInv unique (fun j => k (x j) (x j)) i σ ∧
    ((Partial (fun j l => k (x j) (x l)) i σ ∧
        ∀ F : Fin n → Fin size → ℝ, (∀ j t, σ.approx j t = Ext.fin (F j t)) → ∀ j l, k (x j) (x l) - ∑ t, F j t * F l t = R j l) ∨
      (Exhausted (fun j l => k (x j) (x l)) σ.idx i ∧ R = fun _ _ => 0))

theorem good_step (hk : IsPSD k) (hs : size ≤ n) {draw : PivotDraw n ℝ} (hd : PivotContract draw) {i : Fin size} {σ : RPCState n size ℝ}
    {R : Fin n → Fin n → ℝ} (h : Good k x unique i σ R) {p : Fin n} (hp : draw i (validResiduals σ) = p) :
    Good k x unique (i + 1) (rpcBody Real.sqrt k x unique draw i σ) (pivotOut R p) := by
  have hdiag : ∀ j, 0 ≤ k (x j) (x j) := by
    intro j
    have := hk.2 1 (fun _ => x j) (fun _ => 1)
    simpa using this
  obtain ⟨hI, hP⟩ := h
  refine ⟨rpcInv_step hd hs hdiag hI, ?_⟩
  obtain ⟨p', hp', hpn⟩ := pivot_spec hd hs (fun t ht => hI.done t ht) (fun t ht => hI.todo t ht)
    (fun j => (hI.res j).imp id (fun ⟨v, h0, _, h1⟩ => ⟨v, h0, h1⟩))
  have hpp : p' = p := by
    rw [hp] at hp'
    exact Fin.ext (by exact_mod_cast hp'.symm)
  subst hpp
  have hexh : Exhausted (fun j l => k (x j) (x l)) σ.idx i →
      Exhausted (fun j l => k (x j) (x l)) (rpcBody Real.sqrt k x unique draw i σ).idx (i + 1) :=
    fun h j => columnSpan_mono (selected_step hp) (h j)
  have hzero : pivotOut (fun _ _ => (0 : ℝ)) p' = fun _ _ : Fin n => (0 : ℝ) := by
    funext a b; simp [pivotOut]
  rcases hP with ⟨hP, hR⟩ | ⟨hE, rfl⟩
  · obtain ⟨F, hF, hz, hr, hpsd, -, -⟩ := id hP
    have hRF := hR F hF
    have hRs : ∀ a b, R a b = R b a := fun a b => by
      rw [← hRF, ← hRF, hk.1 (x a) (x b)]
      congr 1
      exact Finset.sum_congr rfl fun t _ => mul_comm _ _
    have hRp : NonnegForm R := by
      have : R = fun j l => k (x j) (x l) - ∑ t, F j t * F l t := by funext j l; exact (hRF j l).symm
      rw [this]; exact hpsd
    rcases hpn with ⟨-, hbad⟩ | ⟨-, hpos⟩
    · right
      have h0 : ∀ j, σ.residual j = Ext.fin 0 := by
        rcases hbad with h0 | ⟨j, hj⟩
        · exact h0
        · rw [hr j] at hj
          exact absurd hj (by simp)
      refine ⟨hexh (exhausted_of_zero (fun a b => hk.1 _ _) hP h0), ?_⟩
      have : R = fun _ _ => 0 := by
        funext a b
        refine NonnegForm.row_zero hRp hRs ?_ b
        have := h0 a
        rw [hr a, hRF] at this
        simpa using this
      rw [this, hzero]
    · left
      refine ⟨partial_step hk.1 hp hP hpos, fun F' hF' j l => ?_⟩
      obtain ⟨v, hv, hpv⟩ := hpos
      rw [hr p'] at hpv
      have hg : 0 < k (x p') (x p') - ∑ t, F p' t * F p' t := by
        have : k (x p') (x p') - ∑ t, F p' t * F p' t = v := by simpa using hpv
        rw [this]; exact hv
      obtain ⟨hA, -⟩ := live_step rootPos_sqrt (unique := unique) hp hF hr hg
      have hF'' : ∀ j t, F' j t = Function.update (F j) i ((k (x j) (x p') - ∑ t, F j t * F p' t) / Real.sqrt (k (x p') (x p') - ∑ t, F p' t * F p' t)) t := by
        intro j t
        have := hF' j t
        rw [hA j t] at this
        exact (by simpa using this.symm)
      simp only [hRF] at hF''
      have hc : ∀ j l, (R j p' / Real.sqrt (R p' p')) * (R l p' / Real.sqrt (R p' p')) = R j p' * R l p' / R p' p' := by
        intro j l
        rw [div_mul_div_comm, Real.mul_self_sqrt (by rw [← hRF]; exact hg.le)]
      have h1 : ∀ t, F' j t * F' l t = F j t * F l t + if t = i then R j p' * R l p' / R p' p' else 0 := by
        intro t
        rw [hF'', hF'']
        by_cases ht : t = i
        · subst ht; simp [hz j t le_rfl, hc]
        · simp [ht]
      simp only [h1, Finset.sum_add_distrib, Finset.sum_ite_eq', Finset.mem_univ, if_true]
      unfold pivotOut
      rw [← hRF j l]
      ring
  · exact Or.inr ⟨hexh hE, hzero⟩

theorem good_init (hk : IsPSD k) : Good (size := size) k x unique 0 ⟨rpcDiagonal k x none, fun _ _ => Ext.fin 0, fun _ => (n : ℤ) + 1⟩
    (fun i j => k (x i) (x j)) := by
  have hdiag : ∀ j, 0 ≤ k (x j) (x j) := by
    intro j
    have := hk.2 1 (fun _ => x j) (fun _ => 1)
    simpa using this
  refine ⟨⟨fun t ht => absurd ht (by omega), fun _ _ => rfl, fun j => Or.inr ⟨_, hdiag j, le_refl _, rfl⟩,
        fun _ t _ ht => absurd ht (by omega), fun _ t _ ht => absurd ht (by omega)⟩, Or.inl ⟨?_, ?_⟩⟩
  · refine ⟨fun _ _ => 0, fun _ _ => rfl, fun _ _ _ => rfl, fun j => by simp [rpcDiagonal], ?_, ?_, ?_⟩
    · intro c
      simpa using hk.2 n x c
    · rintro s' ⟨t, ht, -⟩; omega
    · intro t; exact Submodule.zero_mem _
  · intro F hF j l
    have : ∀ j t, F j t = 0 := fun j t => by have := hF j t; simpa using this.symm
    simp [this]

/-- A good state with a nonzero residual matrix draws its pivot with the diagonal of that matrix as weights. -/
theorem good_live {i : ℕ} {σ : RPCState n size ℝ} {R : Fin n → Fin n → ℝ} (h : Good k x unique i σ R) (hT : 0 < trace R) :
    validResiduals σ = fun j => Ext.fin (R j j) := by
  obtain ⟨-, ⟨hP, hR⟩ | ⟨-, rfl⟩⟩ := h
  · obtain ⟨F, hF, -, hr, -⟩ := hP
    have hr' : ∀ j, σ.residual j = Ext.fin (R j j) := fun j => by rw [hr j, hR F hF]
    unfold validResiduals
    rw [if_neg]
    · funext j; exact hr' j
    · rintro (h0 | ⟨j, hj⟩)
      · refine hT.ne' (Finset.sum_eq_zero fun j _ => ?_)
        have := h0 j
        rw [hr' j] at this
        simpa using this
      · rw [hr' j] at hj
        exact absurd hj (by simp)
  · exact absurd hT (by simp [trace])

/-- After the run, the residual matrix is the error of the Nyström approximation. -/
theorem good_nystrom (hk : IsPSD k) {σ : RPCState n size ℝ} {R : Fin n → Fin n → ℝ} (h : Good k x unique size σ R)
    {A : Fin n → Fin n → ℝ} (hA : IsNystrom (fun i j => k (x i) (x j)) {j | ∃ t, σ.idx t = (j : ℤ)} A) (i j : Fin n) :
    k (x i) (x j) - A i j = R i j := by
  have hsel : ∀ idx : Fin size → ℤ, (selected idx size : Set (Fin n)) = {j : Fin n | ∃ t, idx t = (j : ℤ)} := by
    intro idx; ext j; simp [selected]
  obtain ⟨-, ⟨hP, hR⟩ | ⟨hE, rfl⟩⟩ := h
  · obtain ⟨F, hF, -, -, -, hex, hspan⟩ := hP
    rw [← hR F hF i j]
    have hB : IsNystrom (fun i j => k (x i) (x j)) {j | ∃ t, σ.idx t = (j : ℤ)} (fun i j => ∑ t, F i t * F j t) := by
      refine ⟨fun i j => Finset.sum_congr rfl fun t _ => mul_comm _ _, fun s' hs' j => hex s' (by rw [hsel]; exact hs') j, fun j => ?_⟩
      have : (fun l => ∑ t, F l t * F j t) = ∑ t, F j t • fun l => F l t := by
        funext l
        simp only [Finset.sum_apply, Pi.smul_apply, smul_eq_mul]
        exact Finset.sum_congr rfl fun t _ => mul_comm _ _
      rw [this, ← hsel]
      exact Submodule.sum_mem _ fun t _ => Submodule.smul_mem _ _ (hspan t)
    rw [C16_nystrom_unique k hk x _ A _ hA hB]
  · have hB : IsNystrom (fun i j => k (x i) (x j)) {j | ∃ t, σ.idx t = (j : ℤ)} (fun i j => k (x i) (x j)) := by
      refine ⟨fun i j => hk.1 _ _, fun _ _ _ => rfl, fun j => ?_⟩
      have := hE j
      rwa [hsel] at this
    rw [C16_nystrom_unique k hk x _ A _ hA hB, sub_self]

end Run

end Coreax
