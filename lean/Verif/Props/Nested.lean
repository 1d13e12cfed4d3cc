import Verif.Props.Copies
import Verif.Model.Random

/-!
# C93: Coresets of different sizes
-/

set_option linter.unusedSectionVars false

namespace Coreax

open Spec

section
variable {K : Type*} [Field K] [LinearOrder K] [IsStrictOrderedRing K] {X : Type*} [Zero X] {n : ℕ} [NeZero n]

/-- The sum over the positions before position `i` of a prefix. -/
theorem Nested.sum_before {T T' : ℕ} (h : T ≤ T') (i : Fin T) (g : Fin T' → K) :
    ∑ t : Fin T', (if t < Fin.castLE h i then g t else 0) = ∑ t : Fin T, if t < i then g (Fin.castLE h t) else 0 := by
  obtain ⟨e, rfl⟩ := Nat.exists_eq_add_of_le h
  rw [Fin.sum_univ_add]
  have h2 : ∑ t : Fin e, (if Fin.natAdd T t < Fin.castLE h i then g (Fin.natAdd T t) else 0) = 0 :=
    Finset.sum_eq_zero fun t _ => if_neg (by rw [Fin.lt_def]; have := i.2; simp; omega)
  rw [h2, add_zero]
  exact Finset.sum_congr rfl fun t _ => rfl

/-- **C93.** Kernel herding: the smaller coreset is the beginning of the larger one. -/
theorem C93_herding (big : K) (k : X → X → K) (hk : ∀ a b, k a b = k b a) (unique : Bool) (bs bs' : PyTree (Option ℤ)) (hbs : ValidBlock bs) (hbs' : ValidBlock bs') {T T' : ℕ} (hT : 0 < T) (hle : T ≤ T')
    (pre : Data n X K) (hw : ∑ j, pre.weights j ≠ 0) (hpos : PosCount pre.weights T') (ord : List (Fin (T + (T - T)))) (hord : ∀ t, t ∈ ord) (ord' : List (Fin (T' + (T' - T')))) (hord' : ∀ t, t ∈ ord') :
    ∃ (f' : Fin T' → Fin n) (g g' : List K), herdingReduce big k none unique bs T pre none ord = .ok (⟨fun t => (f' (Fin.castLE hle t) : ℤ), fun _ => 1⟩, g) ∧
      herdingReduce big k none unique bs' T' pre none ord' = .ok (⟨fun t => (f' t : ℤ), fun _ => 1⟩, g') := by
  obtain ⟨f, h1, h2⟩ := C12_reduce_greedy big k hk unique bs hbs T hT pre hw none (by simp) ord hord (le_trans hle hpos)
  obtain ⟨f', h3, h4⟩ := C12_reduce_greedy big k hk unique bs' hbs' T' (by omega) pre hw none (by simp) ord' hord' hpos
  have h5 : HerdingReduce k pre.data pre.weights unique fun t => f' (Fin.castLE hle t) := by
    intro i
    obtain ⟨⟨a1, a2⟩, a3, a4⟩ := h4 (Fin.castLE hle i)
    simp only [Nested.sum_before hle i fun t => k _ (pre.data (f' t))] at a3 a4
    have hal : ∀ j, (0 < pre.weights j ∧ (unique = true → ∀ t, t < i → f' (Fin.castLE hle t) ≠ j)) → (0 < pre.weights j ∧ (unique = true → ∀ t, t < Fin.castLE hle i → f' t ≠ j)) := by
      rintro j ⟨b1, b2⟩
      refine ⟨b1, fun hu t ht => ?_⟩
      exact b2 hu ⟨t, lt_trans ht i.2⟩ ht
    exact ⟨⟨a1, fun hu t ht => a2 hu (Fin.castLE hle t) ht⟩, fun l hl => a3 l (hal l hl), fun l hlt hl => a4 l hlt (hal l hl)⟩
  obtain rfl := C12_reduce_determined k _ _ unique f _ h2 h5
  exact ⟨f', _, _, h1, h3⟩

example (ord : List (Fin (2 + (2 - 2)))) (hord : ∀ t, t ∈ ord) (ord' : List (Fin (3 + (3 - 3)))) (hord' : ∀ t, t ∈ ord') := C93_herding (K := ℚ) 1000 (fun a b : ℚ => a * b + 1) (fun a b => by ring) true (.leaf none) (.leaf none) (Or.inl rfl) (Or.inl rfl) (T := 2) (T' := 3) (by norm_num) (by norm_num)
  (⟨![0, 1, 3, 7], ![1, 2, 0, 1]⟩ : Data 4 ℚ ℚ) (by decide +kernel) (by unfold PosCount; decide +kernel) ord hord ord' hord'

/-- **C93.** Stein thinning with the same regularisation terms. -/
theorem C93_stein (big : K) (k : X → X → K) (unique : Bool) (bs bs' : PyTree (Option ℤ)) (hbs : ValidBlock bs) (hbs' : ValidBlock bs') {T T' : ℕ} (hT : 0 < T) (hle : T ≤ T')
    (pre : Data n X K) (reg : Option (SteinReg n K)) (hpos : PosCount pre.weights T') (ord : List (Fin (T + (T - T)))) (hord : ∀ t, t ∈ ord) (ord' : List (Fin (T' + (T' - T')))) (hord' : ∀ t, t ∈ ord') :
    ∃ f' : Fin T' → Fin n, steinReduce big k unique bs T pre reg ord = .ok ⟨fun t => (f' (Fin.castLE hle t) : ℤ), fun _ => 1⟩ ∧
      steinReduce big k unique bs' T' pre reg ord' = .ok ⟨fun t => (f' t : ℤ), fun _ => 1⟩ := by
  obtain ⟨f, h1, h2, -⟩ := C15_reduce_greedy big k unique bs hbs T hT pre reg ord hord (le_trans hle hpos)
  obtain ⟨f', h3, h4, -⟩ := C15_reduce_greedy big k unique bs' hbs' T' (by omega) pre reg ord' hord' hpos
  have h5 : SteinReduce k pre.data pre.weights (regLap reg) (regLogp reg) unique fun t => f' (Fin.castLE hle t) := by
    intro i
    obtain ⟨⟨a1, a2⟩, a3⟩ := h4 (Fin.castLE hle i)
    simp only [Nested.sum_before hle i fun t => k _ (pre.data (f' t))] at a3
    refine ⟨⟨a1, fun hu t ht => a2 hu (Fin.castLE hle t) ht⟩, fun j hj => a3 j ⟨hj.1, fun hu t ht => ?_⟩⟩
    exact hj.2 hu ⟨t, lt_trans ht i.2⟩ ht
  obtain rfl := C15_reduce_determined k _ _ _ _ unique f _ h2 h5
  exact ⟨f', h1, h3⟩

example (ord : List (Fin (2 + (2 - 2)))) (hord : ∀ t, t ∈ ord) (ord' : List (Fin (3 + (3 - 3)))) (hord' : ∀ t, t ∈ ord') := C93_stein (K := ℚ) 1000 (fun a b : ℚ => a * b + 1) true (.leaf none) (.leaf none) (Or.inl rfl) (Or.inl rfl) (T := 2) (T' := 3) (by norm_num) (by norm_num)
  (⟨![0, 1, 3, 7], ![1, 2, 0, 1]⟩ : Data 4 ℚ ℚ) (some ⟨![1, 0, 2, 0], ![0, -1, 1, 5]⟩) (by unfold PosCount; decide +kernel) ord hord ord' hord'

end

/-- **C93, boundary.** With the default parameter of regularisation, one over the size, the coreset of size one need not be the first point of that of size two: rows 0 and 1, kernel `a b`, log-density 0 and 3/2. -/
theorem C93_stein_default : ∃ (logp : Fin 2 → ℚ),
    (steinReduce 1000 (fun a b : ℚ => a * b) true (.leaf none) 1 ⟨![0, 1], fun _ => 1⟩ (some ⟨fun _ => 0, fun j => 1 / (1 : ℕ) * logp j⟩) [0]).toOption.map (fun r => List.ofFn r.data) = some [1] ∧
    (steinReduce 1000 (fun a b : ℚ => a * b) true (.leaf none) 2 ⟨![0, 1], fun _ => 1⟩ (some ⟨fun _ => 0, fun j => 1 / (2 : ℕ) * logp j⟩) [0, 1]).toOption.map (fun r => List.ofFn r.data) = some [0, 1] :=
  ⟨![0, 3 / 2], by decide +kernel⟩

section
variable {K : Type*} [Field K] [LinearOrder K] [IsStrictOrderedRing K] {X : Type*} {n : ℕ} [NeZero n]

theorem Nested.forLoop_add {σ : Type*} (T e : ℕ) (f : Fin (T + e) → σ → σ) (s : σ) :
    forLoop (T + e) f s = forLoop e (fun i => f (Fin.natAdd T i)) (forLoop T (fun i => f (Fin.castAdd e i)) s) := by
  induction e with
  | zero => rfl
  | succ e ih =>
    have := ih fun i => f i.castSucc
    change f (Fin.last (T + e)) (forLoop (T + e) (fun i => f i.castSucc) s) = f (Fin.natAdd T (Fin.last e)) _
    rw [this]
    rfl

theorem Nested.add_zero (a : Ext K) : a + Ext.fin 0 = a := by
  cases a
  · rfl
  · rfl
  · change Ext.fin _ = Ext.fin _; rw [_root_.add_zero]
  · rfl

theorem Nested.sum_append {T e : ℕ} (g : Fin (T + e) → Ext K) (h : ∀ t : Fin e, g (Fin.natAdd T t) = Ext.fin 0) : Ext.sum g = Ext.sum fun t => g (Fin.castAdd e t) := by
  have hz : ∀ (l : List (Ext K)), (∀ a ∈ l, a = Ext.fin 0) → ∀ b, l.foldl (· + ·) b = b := by
    intro l
    induction l with
    | nil => intro _ b; rfl
    | cons a l ih =>
      intro hl b
      rw [List.foldl_cons, hl a List.mem_cons_self, Nested.add_zero]
      exact ih (fun c hc => hl c (List.mem_cons_of_mem _ hc)) b
  unfold Ext.sum
  rw [List.ofFn_add, List.foldl_append, hz _ fun a ha => ?_]
  · rfl
  · obtain ⟨t, rfl⟩ := (List.mem_ofFn' _ _).1 ha
    exact h t

/-- The states of two loops with room for different numbers of columns. -/
structure Nested.Rel {T e : ℕ} (s : RPCState n T K) (s' : RPCState n (T + e) K) : Prop where
  residual : s.residual = s'.residual
  approx : ∀ j t, s.approx j t = s'.approx j (Fin.castAdd e t)
  idx : ∀ t, s.idx t = s'.idx (Fin.castAdd e t)
  approx' : ∀ j t, s'.approx j (Fin.natAdd T t) = Ext.fin 0
  idx' : ∀ t, s'.idx (Fin.natAdd T t) = (n : ℤ) + 1

theorem Nested.body {T e : ℕ} (root : K → K) (k : X → X → K) (x : Fin n → X) (unique : Bool) (draw : PivotDraw n K) (i : Fin T) (s : RPCState n T K) (s' : RPCState n (T + e) K) (h : Rel s s') :
    Rel (rpcBody root k x unique draw i s) (rpcBody root k x unique draw (Fin.castAdd e i) s') := by
  have hv : validResiduals s = validResiduals s' := by
    unfold validResiduals
    rw [h.residual]
    have hu : (uniformProbs s.idx : Fin n → Ext K) = uniformProbs s'.idx := by
      have hm : ∀ j : Fin n, (∃ t, scatterIdx n (s.idx t) = some j) ↔ ∃ t, scatterIdx n (s'.idx t) = some j := by
        intro j
        constructor
        · rintro ⟨t, ht⟩
          exact ⟨Fin.castAdd e t, by rw [← h.idx]; exact ht⟩
        · rintro ⟨t, ht⟩
          induction t using Fin.addCases with
          | left t => exact ⟨t, by rw [h.idx]; exact ht⟩
          | right t =>
            rw [h.idx'] at ht
            simp only [scatterIdx] at ht
            rw [dif_neg (by split_ifs <;> omega)] at ht
            exact absurd ht (by simp)
      unfold uniformProbs
      simp only [hm]
    rw [hu]
  have hg : ∀ p, pivotColumn k x s.approx p = pivotColumn k x s'.approx p := by
    intro p
    funext j
    unfold pivotColumn
    rw [Nested.sum_append (fun t => s'.approx j t * s'.approx (gatherIdx n p) t) fun t => by rw [h.approx', h.approx']; change Ext.fin _ = _; rw [mul_zero]]
    simp only [h.approx]
  have hi : ∀ t : Fin e, Fin.natAdd T t ≠ Fin.castAdd e i := fun t => by
    intro hc
    have := congrArg Fin.val hc
    have := i.2
    simp at *
    omega
  have hp : draw i (validResiduals s) = draw (Fin.castAdd e i) (validResiduals s') := by rw [hv]; rfl
  refine ⟨?_, fun j t => ?_, fun t => ?_, fun j t => ?_, fun t => ?_⟩
  · simp only [rpcBody, hp, hg, h.residual]
  · simp only [rpcBody, hp, hg]
    by_cases hti : t = i
    · subst hti; simp
    · rw [Function.update_of_ne hti, Function.update_of_ne (fun hc => hti (Fin.castAdd_injective _ _ hc)), h.approx]
  · simp only [rpcBody, hp]
    by_cases hti : t = i
    · subst hti; simp
    · rw [Function.update_of_ne hti, Function.update_of_ne (fun hc => hti (Fin.castAdd_injective _ _ hc)), h.idx]
  · simp only [rpcBody]
    rw [Function.update_of_ne (hi t), h.approx']
  · simp only [rpcBody]
    rw [Function.update_of_ne (hi t), h.idx']

/-- **C93.** Randomly pivoted Cholesky with the same random key (the key of each iteration is that of the solver with the number of the iteration folded in): the smaller coreset is the beginning of the larger one, whatever the values,
NaN included. -/
theorem C93_rpcholesky (root : K → K) (k : X → X → K) (x : Fin n → X) (unique : Bool) (draw : PivotDraw n K) (state : Option (Fin n → Ext K)) {T T' : ℕ} (hle : T ≤ T') (hn : T' ≤ n) :
    ∃ (f : Fin T' → ℤ) (r r' : Fin n → Ext K), rpcReduce root k x unique draw T state = .ok (⟨fun t => f (Fin.castLE hle t), fun _ => 1⟩, r) ∧
      rpcReduce root k x unique draw T' state = .ok (⟨f, fun _ => 1⟩, r') := by
  obtain ⟨e, rfl⟩ := Nat.exists_eq_add_of_le hle
  have e1 : ∀ S, S ≤ n → (initialCoresubset ((n : ℤ) + 1) S n : Except Err (Data S ℤ K)) = .ok ⟨fun _ => (n : ℤ) + 1, fun _ => 0⟩ := fun S hS => by
    unfold initialCoresubset
    rw [if_neg (by omega)]
  refine ⟨(rpcLoop root k x unique draw (T + e) state fun _ => (n : ℤ) + 1).idx, (rpcLoop root k x unique draw T state fun _ => (n : ℤ) + 1).residual, (rpcLoop root k x unique draw (T + e) state fun _ => (n : ℤ) + 1).residual, ?_,
    by unfold rpcReduce; rw [e1 _ hn]⟩
  unfold rpcReduce
  rw [e1 T (by omega)]
  simp only [Except.ok.injEq, Prod.mk.injEq, Data.mk.injEq]
  refine ⟨⟨?_, trivial⟩, trivial⟩
  unfold rpcLoop
  rw [Nested.forLoop_add]
  have h1 : Nested.Rel (n := n) (K := K) (T := T) (e := e) _ _ := forLoop_rel (P := fun _ s s' => Nested.Rel s s') T (rpcBody root k x unique draw) (fun i => rpcBody root k x unique draw (Fin.castAdd e i))
    ⟨rpcDiagonal k x state, fun _ _ => Ext.fin 0, fun _ => (n : ℤ) + 1⟩ ⟨rpcDiagonal k x state, fun _ _ => Ext.fin 0, fun _ => (n : ℤ) + 1⟩
    ⟨rfl, fun _ _ => rfl, fun _ => rfl, fun _ _ => rfl, fun _ => rfl⟩ fun i s s' h => Nested.body root k x unique draw i s s' h
  have h2 := forLoop_inv (P := fun _ (s : RPCState n (T + e) K) => ∀ t : Fin T, s.idx (Fin.castAdd e t) = (forLoop T (fun i => rpcBody root k x unique draw (Fin.castAdd e i))
      (⟨rpcDiagonal k x state, fun _ _ => Ext.fin 0, fun _ => (n : ℤ) + 1⟩ : RPCState n (T + e) K)).idx (Fin.castAdd e t)) e (fun i => rpcBody root k x unique draw (Fin.natAdd T i)) _ (fun _ => rfl) fun i s h t => by
    rw [← h t]
    simp only [rpcBody]
    rw [Function.update_of_ne]
    intro hc
    have := congrArg Fin.val hc
    have := t.2
    simp at *
    omega
  funext t
  exact (h1.idx t).trans (h2 t).symm

example := C93_rpcholesky (K := ℚ) id (fun a b : ℚ => a * b + 1) (![0, 1, 3, 7] : Fin 4 → ℚ) true (fun i _ => i) none (T := 2) (T' := 3) (by norm_num) (by norm_num)

end

section
variable {K : Type*} [Field K] [LinearOrder K] [IsStrictOrderedRing K] {X Y : Type*} [Zero X] {n : ℕ} [NeZero n]

/-- **C93.** With optimised weights a larger coreset that contains the smaller one is at least as good, up to the regularisation of the optimiser. -/
theorem C93_weighted (qp : SimplexQP K) (hqp : QPContract qp) (big : K) (k : X → X → K) (hk : ∀ a b, k a b = k b a) (hpsd : ∀ {m : ℕ} (y : Fin m → X) (v : Fin m → K), 0 ≤ ∑ i, ∑ j, v i * v j * k (y i) (y j))
    (x : Fin n → X) {T T' : ℕ} (hT : 0 < T) (hle : T ≤ T') (f : Fin T' → Fin n) (eps : K) (heps : 0 ≤ eps) (bs : PyTree (Option ℤ)) (hbs : ValidBlock bs) :
    ∃ (v : Fin T → K) (v' : Fin T' → K), mmdWeightsSolve (Y := Y) qp big k ⟨Data.ofArray x, none⟩ ⟨⟨fun t => x (f (Fin.castLE hle t)), fun _ => 1⟩, none⟩ eps bs = .ok (fun i => .fin (v i)) ∧
      mmdWeightsSolve (Y := Y) qp big k ⟨Data.ofArray x, none⟩ ⟨⟨fun t => x (f t), fun _ => 1⟩, none⟩ eps bs = .ok (fun i => .fin (v' i)) ∧
      mmdSq k x (fun _ => 1) (fun t => x (f t)) v' ≤ mmdSq k x (fun _ => 1) (fun t => x (f (Fin.castLE hle t))) v + eps * (1 - 1 / T') := by
  have hn := NeZero.pos n
  obtain ⟨v, h3, h4, -⟩ := C29_optimal (Y := Y) qp hqp big k hk hn hT ⟨Data.ofArray x, none⟩ ⟨⟨fun t => x (f (Fin.castLE hle t)), fun _ => 1⟩, none⟩ rfl rfl eps heps (fun v => hpsd _ v) bs hbs
  obtain ⟨v', h3', h4', h5'⟩ := C29_optimal (Y := Y) qp hqp big k hk hn (by omega) ⟨Data.ofArray x, none⟩ ⟨⟨fun t => x (f t), fun _ => 1⟩, none⟩ rfl rfl eps heps (fun v => hpsd _ v) bs hbs
  refine ⟨v, v', h3, h3', ?_⟩
  have hs := Reweight.push_onSimplex (Fin.castLE hle) v h4
  have h6 := h5' _ hs
  simp only at h6
  rw [Reweight.distSq_push k _ _ (fun t => x (f (Fin.castLE hle t))) (fun t => x (f t)) (Fin.castLE hle) (fun _ => rfl) v] at h6
  rw [Reweight.distSq_unweighted, Reweight.distSq_unweighted]
  have e1 : (fun i => v i / ∑ a, v a) = v := by funext i; rw [h4.2, div_one]
  have e2 : (fun i => v' i / ∑ a, v' a) = v' := by funext i; rw [h4'.2, div_one]
  rw [e1, e2]
  have h7 := mul_le_mul_of_nonneg_left (Reweight.sum_sq_ge (by omega) v' h4') heps
  have h8 : ∑ i : Fin T', (∑ j, if Fin.castLE hle j = i then v j else 0) ^ 2 ≤ 1 := by
    rw [← hs.2]
    refine Finset.sum_le_sum fun i _ => ?_
    have h0 := hs.1 i
    have h1 : (∑ j, if Fin.castLE hle j = i then v j else 0) ≤ 1 := (Finset.single_le_sum (f := fun i => ∑ j, if Fin.castLE hle j = i then v j else 0) (fun i _ => hs.1 i) (Finset.mem_univ i)).trans_eq hs.2
    rw [sq]
    exact mul_le_of_le_one_left h0 h1
  have h9 := mul_le_mul_of_nonneg_left h8 heps
  have h10 : distSq k (Data.ofArray (K := K) x).data (fun _ => 1 / (n : K)) (fun t => x (f t)) v' + eps * ∑ i, v' i ^ 2 ≤ _ := h6
  have h11 : distSq k x (fun _ => 1 / (n : K)) (fun t => x (f t)) v' + eps * ∑ i, v' i ^ 2 ≤ distSq k x (fun _ => 1 / (n : K)) (fun t => x (f (Fin.castLE hle t))) v + eps * ∑ i : Fin T', (∑ j, if Fin.castLE hle j = i then v j else 0) ^ 2 := h10
  rw [mul_sub]
  linarith

example (qp : SimplexQP ℚ) (hqp : QPContract qp) := C93_weighted (Y := Unit) qp hqp 1000 (fun a b : ℚ => a * b) (fun a b => mul_comm a b)
  (fun y v => by
    have : ∑ i, ∑ j, v i * v j * (y i * y j) = (∑ i, v i * y i) ^ 2 := by rw [sq, Finset.sum_mul_sum]; exact Finset.sum_congr rfl fun i _ => Finset.sum_congr rfl fun j _ => by ring
    rw [this]; positivity)
  (![0, 1, 3, 7] : Fin 4 → ℚ) (T := 2) (T' := 3) (by norm_num) (by norm_num) ![3, 0, 1] (1 / 10 ^ 10) (by norm_num) (.leaf none) (Or.inl rfl)

end

/-- **C93, boundary.** Without weights more points can be worse: for two rows at `a` and two at `b` the herding coreset of size two has maximum mean discrepancy zero, that of size three has not; for every squared exponential
kernel. -/
theorem C93_not_monotone {d : ℕ} (big l : ℝ) (hl : 0 < l) (a b : Vec d) (hab : a ≠ b) (ord : List (Fin (3 + (3 - 3)))) (hord : ∀ t, t ∈ ord) (ord' : List (Fin (2 + (2 - 2)))) (hord' : ∀ t, t ∈ ord') :
    ∃ g g' : List ℝ, ∃ r : ℝ, herdingReduce big (KExpr.squaredExponential l 1 : KExpr d).sem.compute none true (.leaf none) 2 (Data.ofArray ![a, a, b, b]) none ord' = .ok (⟨![0, 2], fun _ => 1⟩, g) ∧
      herdingReduce big (KExpr.squaredExponential l 1 : KExpr d).sem.compute none true (.leaf none) 3 (Data.ofArray ![a, a, b, b]) none ord = .ok (⟨![0, 2, 1], fun _ => 1⟩, g') ∧
      mmdCompute big (KExpr.squaredExponential l 1 : KExpr d).sem.compute (Data.ofArray ![a, a, b, b]) (Data.ofArray ![a, b]) (.leaf none) = .ok 0 ∧
      mmdCompute big (KExpr.squaredExponential l 1 : KExpr d).sem.compute (Data.ofArray ![a, a, b, b]) (Data.ofArray ![a, b, a]) (.leaf none) = .ok r ∧ 0 < r := by
  have hk := C08_psd (.squaredExponential l 1 : KExpr d) (SteinStrict.check_squaredExponential hl one_pos) trivial
  have hq : 0 < sqDist a b := lt_of_le_of_ne (sqDist_nonneg a b) fun e => hab (by
    funext i
    have := (Finset.sum_eq_zero_iff_of_nonneg fun i _ => mul_self_nonneg (a i - b i)).1 e.symm i (Finset.mem_univ i)
    exact sub_eq_zero.1 (mul_self_eq_zero.1 this))
  have hz : ∀ z : Vec d, sqDist z z = 0 := fun z => by simp [sqDist]
  obtain ⟨κ, hκ⟩ : ∃ κ, κ = (KExpr.squaredExponential l 1 : KExpr d).sem.compute a b := ⟨_, rfl⟩
  have kzz : ∀ z, (KExpr.squaredExponential l 1 : KExpr d).sem.compute z z = 1 := fun z => by simp [KExpr.sem, squaredExponentialSem, hz]
  have kba : (KExpr.squaredExponential l 1 : KExpr d).sem.compute b a = κ := by rw [hk.1 b a, hκ]
  have hκ1 : κ < 1 := by
    rw [hκ]
    simp only [KExpr.sem, squaredExponentialSem, one_mul]
    rw [Real.exp_lt_one_iff]
    exact div_neg_of_neg_of_pos (neg_neg_of_pos hq) (by positivity)
  obtain ⟨k, hkk⟩ : ∃ k, k = (KExpr.squaredExponential l 1 : KExpr d).sem.compute := ⟨_, rfl⟩
  rw [← hkk] at hk hκ kzz kba ⊢
  have hspec : HerdingReduce k ![a, a, b, b] (fun _ => 1) true (![0, 2, 1] : Fin 3 → Fin 4) := by
    intro i
    fin_cases i
    all_goals
      refine ⟨⟨one_pos, ?_⟩, ?_, ?_⟩
      · intro _ t
        fin_cases t <;> simp
      · intro j
        fin_cases j <;> simp [avg, Fin.sum_univ_four, Fin.sum_univ_three, kzz, kba, ← hκ, Fin.forall_fin_succ] <;> linarith
      · intro j
        fin_cases j <;> simp [avg, Fin.sum_univ_four, Fin.sum_univ_three, kzz, kba, ← hκ, Fin.forall_fin_succ] <;> linarith
  have hw : ∑ j, (Data.ofArray (K := ℝ) ![a, a, b, b]).weights j ≠ 0 := by simp [Data.ofArray]
  obtain ⟨f', g, g', h1, h2⟩ := C93_herding big k hk.1 true (.leaf none) (.leaf none) (Or.inl rfl) (Or.inl rfl) (T := 2) (T' := 3) (by norm_num) (by norm_num) (Data.ofArray ![a, a, b, b]) hw
    (by unfold PosCount; simp [Data.ofArray]) ord' hord' ord hord
  obtain ⟨f, h3, h4⟩ := C12_reduce_greedy big k hk.1 true (.leaf none) (Or.inl rfl) 3 (by norm_num) (Data.ofArray ![a, a, b, b]) hw none (by simp) ord hord (by unfold PosCount; simp [Data.ofArray])
  obtain rfl := C12_reduce_determined k _ _ true f _ h4 hspec
  have hff : f' = ![0, 2, 1] := by
    rw [h3] at h2
    simp only [Except.ok.injEq, Prod.mk.injEq, Data.mk.injEq] at h2
    funext t
    have := congrFun h2.1.1 t
    exact Fin.ext (by exact_mod_cast this.symm)
  subst hff
  have e2 : (fun t : Fin 2 => (((![0, 2, 1] : Fin 3 → Fin 4) (Fin.castLE (by norm_num) t) : ℕ) : ℤ)) = ![0, 2] := by decide
  have e3 : (fun t : Fin 3 => (((![0, 2, 1] : Fin 3 → Fin 4) t : ℕ) : ℤ)) = ![0, 2, 1] := by decide
  rw [e2] at h1
  rw [e3] at h2
  refine ⟨g, g', _, h1, h2, ?_, C07_compute big k (by norm_num) (by norm_num) _ _ hw (by simp [Data.ofArray]) _ (Or.inl rfl), ?_⟩
  · rw [C07_compute big k (by norm_num) (by norm_num) _ _ hw (by simp [Data.ofArray]) _ (Or.inl rfl)]
    have : mmdSq k (Data.ofArray (K := ℝ) ![a, a, b, b]).data (Data.ofArray (K := ℝ) ![a, a, b, b]).weights (Data.ofArray (K := ℝ) ![a, b]).data (Data.ofArray (K := ℝ) ![a, b]).weights = 0 := by
      simp [mmdSq, avg, Data.ofArray, Fin.sum_univ_four, Fin.sum_univ_two, kzz, kba, ← hκ]
      ring
    rw [this]
    simp
  · have : mmdSq k (Data.ofArray (K := ℝ) ![a, a, b, b]).data (Data.ofArray (K := ℝ) ![a, a, b, b]).weights (Data.ofArray (K := ℝ) ![a, b, a]).data (Data.ofArray (K := ℝ) ![a, b, a]).weights = (1 - κ) / 18 := by
      simp [mmdSq, avg, Data.ofArray, Fin.sum_univ_four, Fin.sum_univ_three, kzz, kba, ← hκ]
      ring
    rw [this]
    exact Real.sqrt_pos.2 (lt_max_of_lt_right (by linarith))

example (ord : List (Fin (3 + (3 - 3)))) (hord : ∀ t, t ∈ ord) (ord' : List (Fin (2 + (2 - 2)))) (hord' : ∀ t, t ∈ ord') := C93_not_monotone 1000 (1 / 2) (by norm_num) (![0, 1] : Vec 2) ![3, 1] (fun h => by simpa using congrFun h 0) ord hord ord' hord'

end Coreax
