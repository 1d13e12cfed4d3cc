import Verif.Model.ExtSolvers
import Verif.Props.NotANumber
import Verif.Props.Random

/-!
# C108: Values that are not numbers in the random solvers
-/

set_option linter.unusedSectionVars false

namespace Coreax

open Spec Ext NotANumber

/-- The uniform probabilities on a set of rows. -/
def Spec.uniformOn {n : ℕ} {K : Type*} [Field K] (S : Finset (Fin n)) : Fin n → Ext K :=
  fun j => fin (if j ∈ S then 1 / (S.card : K) else 0)

section
variable {X K : Type*} [Field K] [LinearOrder K] [IsStrictOrderedRing K] {n : ℕ} [NeZero n] {size : ℕ}

/-- With a kernel that is a number on the rows, the solver is the one of numbers. -/
theorem C108_rpc_numbers (root : K → K) (k : X → X → Ext K) (k' : X → X → K) (x : Fin n → X)
    (h : ∀ i j, k (x i) (x j) = fin (k' (x i) (x j))) (unique : Bool) (draw : PivotDraw n K) (size : ℕ) :
    rpcReduceX root k x unique draw size = rpcReduce root k' x unique draw size none := by
  have hb : rpcBodyX (size := size) root k x unique draw = rpcBody root k' x unique draw := by
    funext i s
    simp only [rpcBodyX, rpcBody, pivotColumnX, pivotColumn, h]
  simp only [rpcReduceX, rpcReduce, rpcLoop, rpcDiagonal, hb, h]
  cases (initialCoresubset ((n : ℤ) + 1) size n : Except Err (Data size ℤ K)) <;> rfl

example := C108_rpc_numbers (K := ℚ) id (fun a b : ℚ => if a = 5 ∨ b = 5 then nan else fin (a * b)) (fun a b => a * b) (![1, 2, 3] : Fin 3 → ℚ) (by decide +kernel) true
  (fun _ p => nanargmax p) 2

theorem foldl_add_nan (l : List (Ext K)) (a : Ext K) (h : a = nan ∨ nan ∈ l) : l.foldl (· + ·) a = nan := by
  induction l generalizing a with
  | nil => simpa using h
  | cons b l ih =>
    refine ih _ ?_
    rcases h with rfl | h
    · exact .inl (by cases b <;> rfl)
    · rcases List.mem_cons.1 h with rfl | h
      · exact .inl (by cases a <;> rfl)
      · exact .inr h

theorem Ext.sum_nan {m : ℕ} {f : Fin m → Ext K} {i : Fin m} (h : f i = nan) : Ext.sum f = nan :=
  foldl_add_nan _ _ (.inr (List.mem_ofFn.2 ⟨i, h⟩))

theorem uniformProbs_eq (idx : Fin size → ℤ) {S : Finset (Fin n)} (hS : S.Nonempty)
    (h : ∀ j, j ∈ S ↔ ¬ ∃ t, scatterIdx n (idx t) = some j) : (uniformProbs idx : Fin n → Ext K) = uniformOn S := by
  have hc : (Finset.univ.filter (fun j => (!decide (∃ t, scatterIdx n (idx t) = some j)) = true)) = S := by
    ext j
    simp [h]
  funext j
  have h0 : ((S.card : ℕ) : K) ≠ 0 := by exact_mod_cast (Finset.card_pos.2 hS).ne'
  simp only [uniformProbs, hc, uniformOn]
  by_cases hj : j ∈ S
  · have := (h j).1 hj
    simp only [this, hj, not_false_eq_true, decide_false, Bool.not_false, if_true]
    exact (if_neg h0)
  · have : ∃ t, scatterIdx n (idx t) = some j := by by_contra hh; exact hj ((h j).2 hh)
    simp only [this, hj, decide_true, Bool.not_true, Bool.false_eq_true, if_false]
    exact (if_neg h0).trans (by rw [zero_div])

/-- The state in the loop when row `r` is not a number: rows so far drawn uniformly from the others, and a residual that is
not a number: that of `r`, or all but one after `r` has been the pivot. -/
structure RpcNan (draw : PivotDraw n K) (r : Fin n) (t : ℕ) (s : RPCState n size K) : Prop where
  todo : ∀ a : Fin size, t ≤ a → s.idx a = (n : ℤ) + 1
  done : ∃ i : Fin size → Fin n, (∀ a : Fin size, (a : ℕ) < t → s.idx a = (i a : ℤ)) ∧
    (∀ a b : Fin size, (a : ℕ) < t → b < a → i a ≠ i b) ∧
    ∀ a : Fin size, (a : ℕ) < t → draw a (uniformOn (Finset.univ \ (Finset.univ.filter (· < a)).image i)) = (i a : ℤ)
  bad : s.residual r = nan ∨ (0 < t ∧ (∃ a, ∀ j, s.approx j a = nan) ∧ ∃ p, ∀ j, j ≠ p → s.residual j = nan)

theorem scatterIdx_out (n : ℕ) : scatterIdx n ((n : ℤ) + 1) = none := by
  simp only [scatterIdx]
  split_ifs <;> first | rfl | omega

theorem rpcNan_step (root : K → K) (k : X → X → Ext K) (x : Fin n → X) (unique : Bool) (draw : PivotDraw n K)
    (hd : PivotContract draw) (hs : size ≤ n) {r : Fin n} (hr : ∀ j, k (x j) (x r) = nan) (i : Fin size) (s : RPCState n size K)
    (h : RpcNan draw r i s) : RpcNan draw r (i + 1) (rpcBodyX root k x unique draw i s) := by
  obtain ⟨e, he, hne, hdraw⟩ := h.done
  have hi := i.2
  -- the probabilities
  have hnan : ∃ j, s.residual j = nan := by
    rcases h.bad with hb | ⟨ht, -, p, hp⟩
    · exact ⟨r, hb⟩
    · have : Nontrivial (Fin n) := Fin.nontrivial_iff_two_le.2 (by omega)
      obtain ⟨j, hj⟩ := exists_ne p
      exact ⟨j, hp j hj⟩
  set S : Finset (Fin n) := Finset.univ \ (Finset.univ.filter (· < i)).image e with hS
  have hSne : S.Nonempty := by
    rw [← Finset.card_pos]
    have h1 := Finset.card_sdiff_of_subset (Finset.subset_univ ((Finset.univ.filter (· < i)).image e))
    have h2 : ((Finset.univ.filter (· < i)).image e).card ≤ (i : ℕ) :=
      Finset.card_image_le.trans (by rw [show Finset.univ.filter (· < i) = Finset.Iio i from by ext; simp]; simp)
    have h3 : (Finset.univ : Finset (Fin n)).card = n := by simp
    rw [hS]
    omega
  have hprob : validResiduals s = uniformOn S := by
    rw [validResiduals, if_pos (.inr hnan)]
    refine uniformProbs_eq _ hSne fun j => ?_
    simp only [hS, Finset.mem_sdiff, Finset.mem_univ, true_and, Finset.mem_image, Finset.mem_filter]
    refine not_congr ⟨?_, ?_⟩
    · rintro ⟨a, ha, rfl⟩
      exact ⟨a, by rw [he a ha, scatterIdx_coe]⟩
    · rintro ⟨a, ha⟩
      by_cases hai : a < i
      · rw [he a hai, scatterIdx_coe] at ha
        exact ⟨a, hai, Option.some.inj ha⟩
      · rw [h.todo a (not_lt.1 hai), scatterIdx_out] at ha
        cases ha
  obtain ⟨p, v, hp, hv, hpv⟩ := hd i (uniformOn S) (fun j => by
      by_cases hj : j ∈ S
      · exact ⟨1 / (S.card : K), by positivity, by simp [uniformOn, hj]⟩
      · exact ⟨0, le_rfl, by simp [uniformOn, hj]⟩) (by
      obtain ⟨j, hj⟩ := hSne
      have h0 : (0 : K) < (S.card : K) := by exact_mod_cast Finset.card_pos.2 ⟨j, hj⟩
      exact ⟨j, 1 / (S.card : K), by positivity, by simp [uniformOn, hj]⟩)
  have hpS : p ∈ S := by
    by_contra hpS
    simp only [uniformOn, hpS, if_false, Ext.fin.injEq] at hpv
    exact hv.ne hpv
  have hpnew : ∀ b, b < i → p ≠ e b := by
    intro b hb hpb
    simp only [hS, Finset.mem_sdiff, Finset.mem_univ, true_and, Finset.mem_image, Finset.mem_filter] at hpS
    exact hpS ⟨b, hb, hpb.symm⟩
  have himg : ∀ a : Fin size, a ≤ i → (Finset.univ.filter (· < a)).image (Function.update e i p) = (Finset.univ.filter (· < a)).image e := by
    intro a ha
    refine Finset.image_congr fun b hb => ?_
    simp only [Finset.coe_filter, Finset.mem_univ, true_and, Set.mem_ofPred_eq] at hb
    exact Function.update_of_ne (ne_of_lt (lt_of_lt_of_le hb ha)) _ _
  have hpivot : draw i (validResiduals s) = (p : ℤ) := by rw [hprob, hp]
  refine ⟨fun a ha => ?_, ⟨Function.update e i p, fun a ha => ?_, fun a b ha hb => ?_, fun a ha => ?_⟩, ?_⟩
  · have : a ≠ i := fun hh => by subst hh; omega
    simp only [rpcBodyX, Function.update_of_ne this]
    exact h.todo a (by omega)
  · by_cases hai : a = i
    · subst hai
      simp only [rpcBodyX, Function.update_self, hpivot]
    · have : (a : ℕ) ≠ i := fun hh => hai (Fin.ext hh)
      simp only [rpcBodyX, Function.update_of_ne hai]
      exact he a (by omega)
  · by_cases hai : a = i
    · subst hai
      rw [Function.update_self, Function.update_of_ne hb.ne]
      exact hpnew b hb
    · have : (a : ℕ) ≠ i := fun hh => hai (Fin.ext hh)
      have hbi : b ≠ i := fun hh => by subst hh; have : (b : ℕ) < a := hb; omega
      rw [Function.update_of_ne hai, Function.update_of_ne hbi]
      exact hne a b (by omega) hb
  · rw [himg a (by show (a : ℕ) ≤ i; omega)]
    by_cases hai : a = i
    · subst hai
      rw [Function.update_self]
      exact hp
    · have : (a : ℕ) ≠ i := fun hh => hai (Fin.ext hh)
      rw [Function.update_of_ne hai]
      exact hdraw a (by omega)
  · -- a column that is not a number
    have hcol : (∀ j, pivotColumnX k x s.approx (p : ℤ) j = nan) →
        (∃ a, ∀ j, (rpcBodyX root k x unique draw i s).approx j a = nan) ∧
          ∃ q, ∀ j, j ≠ q → (rpcBodyX root k x unique draw i s).residual j = nan := by
      intro hg
      refine ⟨⟨i, fun j => by simp only [rpcBodyX, hpivot, hg, Function.update_self, Ext.nan_div]⟩, p, fun j hj => ?_⟩
      simp only [rpcBodyX, hpivot, hg, Ext.nan_div, nan_mul, sub_nan, Ext.max0]
      cases unique
      · rfl
      · simp only [if_true]
        rw [setAt_coe, Function.update_of_ne hj]
    rcases h.bad with hb | ⟨-, ⟨a, ha⟩, -⟩
    · by_cases hpr : p = r
      · right
        refine ⟨by omega, hcol fun j => ?_⟩
        simp only [pivotColumnX, gatherIdx_coe, hpr, hr, nan_sub]
      · left
        simp only [rpcBodyX, hpivot, hb, nan_sub, Ext.max0]
        cases unique
        · simp [hb, Ext.max0]
        · simp only [if_true]
          rw [setAt_coe, Function.update_of_ne (Ne.symm hpr)]
          simp [hb, Ext.max0]
    · right
      refine ⟨by omega, hcol fun j => ?_⟩
      simp only [pivotColumnX]
      rw [Ext.sum_nan (i := a) (by rw [ha j, nan_mul]), sub_nan]

/-- If one row is not a number, then randomly pivoted Cholesky is uniform random sampling without repetition, whatever
the other rows, the kernel and `unique`: every pivot is drawn with equal probabilities from the rows that are not yet chosen. -/
theorem C108_rpc (root : K → K) (k : X → X → Ext K) (x : Fin n → X) (unique : Bool) (draw : PivotDraw n K)
    (hd : PivotContract draw) (hs : size ≤ n) {r : Fin n} (hr : ∀ j, k (x j) (x r) = nan) :
    ∃ (i : Fin size → Fin n) (state : Fin n → Ext K), Function.Injective i ∧
      rpcReduceX root k x unique draw size = .ok (⟨fun t => (i t : ℤ), fun _ => 1⟩, state) ∧
      ∀ a : Fin size, draw a (uniformOn (Finset.univ \ (Finset.univ.filter (· < a)).image i)) = (i a : ℤ) := by
  have h := forLoop_inv (P := fun t s => RpcNan draw r t s) size (rpcBodyX root k x unique draw)
    ⟨fun j => k (x j) (x j), fun _ _ => fin 0, fun _ => (n : ℤ) + 1⟩
    ⟨fun _ _ => rfl, ⟨fun _ => 0, fun a ha => by omega, fun a b ha => by omega, fun a ha => by omega⟩, .inl (hr r)⟩
    (fun i s hs' => rpcNan_step root k x unique draw hd hs hr i s hs')
  obtain ⟨i, h1, h2, h3⟩ := h.done
  have hok : rpcReduceX root k x unique draw size = .ok (⟨fun t => (i t : ℤ), fun _ => 1⟩,
      (forLoop size (rpcBodyX root k x unique draw) ⟨fun j => k (x j) (x j), fun _ _ => fin 0, fun _ => (n : ℤ) + 1⟩).residual) := by
    simp only [rpcReduceX, initialCoresubset, gt_iff_lt, not_lt.2 hs, if_false, Except.ok.injEq, Prod.mk.injEq, Data.mk.injEq, and_true]
    exact funext fun t => h1 t t.2
  refine ⟨i, _, fun a b hab => ?_, hok, fun a => h3 a a.2⟩
  · rcases lt_trichotomy a b with hl | hl | hl
    · exact absurd hab.symm (h2 b a b.2 hl)
    · exact hl
    · exact absurd hab (h2 a b a.2 hl)

example := C108_rpc (K := ℚ) (size := 2) id (fun a b : ℚ => if a = 5 ∨ b = 5 then nan else fin (a * b)) (![1, 5, 2] : Fin 3 → ℚ) false (fun _ p => nanargmax p)
  pivotContract_greedy (by norm_num) (r := 1) (by decide +kernel)

/-- The pivots of the number solver, and of the one with a row that is not a number: with `unique=False`. -/
example : ((rpcReduceX (id : ℚ → ℚ) (fun a b : ℚ => if a = 5 ∨ b = 5 then nan else fin (a * b)) (![1, 2, 3, 4] : Fin 4 → ℚ) false (fun _ p => nanargmax p) 3).map
      (fun r => List.ofFn r.1.data)) = .ok [3, 3, 3] ∧
    ((rpcReduceX (id : ℚ → ℚ) (fun a b : ℚ => if a = 5 ∨ b = 5 then nan else fin (a * b)) (![1, 2, 5, 4] : Fin 4 → ℚ) false (fun _ p => nanargmax p) 3).map
      (fun r => List.ofFn r.1.data)) = .ok [0, 1, 2] := by decide +kernel

/-- So the data do not matter at all, once a row is not a number. -/
theorem C108_rpc_data {X' : Type*} (root root' : K → K) (k : X → X → Ext K) (k' : X' → X' → Ext K) (x : Fin n → X) (x' : Fin n → X')
    (unique unique' : Bool) (draw : PivotDraw n K) (hd : PivotContract draw) (hs : size ≤ n) {r r' : Fin n}
    (hr : ∀ j, k (x j) (x r) = nan) (hr' : ∀ j, k' (x' j) (x' r') = nan) :
    ∃ c st st', rpcReduceX root k x unique draw size = .ok (c, st) ∧ rpcReduceX root' k' x' unique' draw size = .ok (c, st') := by
  obtain ⟨i, st, -, h1, h2⟩ := C108_rpc root k x unique draw hd hs hr
  obtain ⟨i', st', -, h1', h2'⟩ := C108_rpc root' k' x' unique' draw hd hs hr'
  have : i = i' := by
    have key : ∀ t (ht : t < size), i ⟨t, ht⟩ = i' ⟨t, ht⟩ := by
      intro t
      induction t using Nat.strong_induction_on with
      | _ t ih =>
        intro ht
        have e1 := h2 ⟨t, ht⟩
        have e2 := h2' ⟨t, ht⟩
        have : (Finset.univ.filter (· < (⟨t, ht⟩ : Fin size))).image i = (Finset.univ.filter (· < (⟨t, ht⟩ : Fin size))).image i' := by
          refine Finset.image_congr fun b hb => ?_
          simp only [Finset.coe_filter, Finset.mem_univ, true_and, Set.mem_ofPred_eq] at hb
          exact ih b hb b.2
        rw [this, e2] at e1
        exact Fin.ext (by exact_mod_cast e1.symm)
    exact funext fun t => key t t.2
  subst this
  exact ⟨_, st, st', h1, h1'⟩

example := C108_rpc_data (K := ℚ) (size := 2) id id (fun a b : ℚ => if a = 5 ∨ b = 5 then nan else fin (a * b)) (fun a b : ℚ => if a = 0 ∨ b = 0 then nan else fin (a + b))
  (![1, 5, 2] : Fin 3 → ℚ) (![7, 8, 0] : Fin 3 → ℚ) false true (fun _ p => nanargmax p) pivotContract_greedy (by norm_num) (r := 1) (r' := 2) (by decide +kernel) (by decide +kernel)

end


section
variable {X K : Type*} [Field K] [LinearOrder K] [IsStrictOrderedRing K]

theorem finsetSum_fin {ι : Type*} (S : Finset ι) (f : ι → K) : ∑ i ∈ S, (fin (f i) : Ext K) = fin (∑ i ∈ S, f i) := by
  classical
  induction S using Finset.induction_on with
  | empty => rfl
  | insert a S ha ih => rw [Finset.sum_insert ha, Finset.sum_insert ha, ih]; rfl

/-- With a kernel that is a number on the rows, halving is the one of numbers. -/
theorem C108_half_numbers {h : ℕ} [NeZero (2 * h)] (root : K → K) (k : X → X → Ext K) (k' : X → X → K) (c : Ext K) (u : ℕ → K)
    (x : Fin (2 * h) → X) (hk : ∀ i j, k (x i) (x j) = fin (k' (x i) (x j))) : ktHalfX root k c u x = ktHalf root k' c u x := by
  have hb : ktBodyX root k c u x = ktBody root k' c u x := by
    funext i s
    have ha : ∀ a b : Fin (2 * h), ktAlphaX k x (x a) (x b) s.first s.maskX s.maskC = fin (ktAlpha k' x (x a) (x b) s.first s.maskX s.maskC) := by
      intro a b
      have hsub : ∀ a b : K, (fin a - fin b : Ext K) = fin (a - b) := fun a b => by
        show fin (a + -b) = fin (a - b)
        rw [sub_eq_add_neg]
      simp only [ktAlphaX, ktAlpha, hk, hsub, fin_mul_fin, finsetSum_fin]
      rfl
    have hdist : ∀ a b : Fin (2 * h), ktDistanceX root k (x a) (x b) = ktDistance root k' (x a) (x b) := by
      intro a b
      simp only [ktDistanceX, ktDistance, hk]
      show Ext.sqrt root (fin (_ + -_)) = _
      rw [← sub_eq_add_neg]
    simp only [ktBodyX, ktBody, ha, hdist, ktSwapX, ktSwap]
    rfl
  simp only [ktHalfX, ktHalf, hb]

example := C108_half_numbers (K := ℚ) (h := 2) id (fun a b : ℚ => if a = 5 ∨ b = 5 then nan else fin (a * b)) (fun a b => a * b) (fin 2) (fun _ => 1 / 3) ![1, 2, 3, 4]
  (by decide +kernel)

/-- If one row is not a number, halving is not random any more: the first half are the rows in even places, the second half
those in odd places. -/
theorem C108_half {h : ℕ} [NeZero (2 * h)] (root : K → K) (k : X → X → Ext K) (c : Ext K) (u : ℕ → K)
    (x : Fin (2 * h) → X) {r : Fin (2 * h)} (hr : ∀ j, k (x r) (x j) = nan) :
    ktHalfX root k c u x = (fun t : Fin h => 2 * ((t : ℕ) : ℤ), fun t : Fin h => 2 * ((t : ℕ) : ℤ) + 1) := by
  have hbody : ∀ (i : Fin h) s, (ktBodyX root k c u x i s).first = Function.update s.first i (2 * (i : ℤ)) ∧
      (ktBodyX root k c u x i s).second = Function.update s.second i (2 * (i : ℤ) + 1) := by
    intro i s
    have ha : ktAlphaX k x (x (gatherIdx (2 * h) ((i : ℤ) * 2))) (x (gatherIdx (2 * h) ((i : ℤ) * 2 + 1))) s.first s.maskX s.maskC
        = nan := by
      simp only [ktAlphaX]
      rw [finsetSum_nan (i := r) (Finset.mem_univ _) (by simp [hr]), nan_add]
    have hsw : ∀ a : Ext K, ktSwapX (u i) a nan = false := by
      intro a
      simp [ktSwapX, Ext.le, Ext.isNan]
    simp only [ktBodyX, ha, hsw, Bool.false_eq_true, if_false, setAt_coe, and_self]
  have h := forLoop_inv (P := fun i (s : KTState h K) => ∀ t : Fin h, (t : ℕ) < i → s.first t = 2 * (t : ℤ) ∧ s.second t = 2 * (t : ℤ) + 1) h
    (ktBodyX root k c u x) (ktInit h) (fun t ht => by omega) (fun i s hs t ht => by
      rw [(hbody i s).1, (hbody i s).2]
      by_cases hti : t = i
      · subst hti; simp
      · have : (t : ℕ) ≠ i := fun hh => hti (Fin.ext hh)
        rw [Function.update_of_ne hti, Function.update_of_ne hti]
        exact hs t (by omega))
  simp only [ktHalfX, Prod.mk.injEq]
  exact ⟨funext fun t => (h t t.2).1, funext fun t => (h t t.2).2⟩

example := C108_half (K := ℚ) (h := 2) id (fun a b : ℚ => if a = 5 ∨ b = 5 then nan else fin (a * b)) (fin 2) (fun _ => 0) ![1, 2, 3, 5] (r := 3) (by decide +kernel)

/-- With draws of zero, halving numbers swaps the first pair. -/
example : List.ofFn (ktHalfX (h := 2) (id : ℚ → ℚ) (fun a b : ℚ => if a = 5 ∨ b = 5 then nan else fin (a * b)) (fin 2) (fun _ => 0) ![1, 2, 3, 4]).1 = [1, 3] ∧
    List.ofFn (ktHalfX (h := 2) (id : ℚ → ℚ) (fun a b : ℚ => if a = 5 ∨ b = 5 then nan else fin (a * b)) (fin 2) (fun _ => 0) ![1, 2, 3, 5]).1 = [0, 2] := by
  decide +kernel

variable {n : ℕ} [NeZero n] {size : ℕ} [NeZero size]

theorem ktHalfRecursiveX_fin (root : K → K) (k : X → X → Ext K) (k' : X → X → K) (c : Ext K) (u : ℕ → K) (d : Fin n → X)
    (hk : ∀ i j, k (d i) (d j) = fin (k' (d i) (d j))) (m : ℕ) (parent : Fin (ktRows size m) → ℤ) :
    ktHalfRecursiveX root k c u d m parent = ktHalfRecursive root k' c u d m parent := by
  induction m with
  | zero => rfl
  | succ m ih =>
    simp only [ktHalfRecursiveX, ktHalfRecursive]
    rw [C108_half_numbers root k k' c u _ (fun i j => hk _ _), ih, ih]

theorem ktPartitionX_fin (root : K → K) (k : X → X → Ext K) (k' : X → X → K) (c : Ext K) (u : ℕ → K) (d : Fin n → X)
    (hk : ∀ i j, k (d i) (d j) = fin (k' (d i) (d j))) (m : ℕ) :
    ktPartitionX (size := size) root k c u d m = ktPartition root k' c u d m := by
  cases m with
  | zero => rfl
  | succ m =>
    simp only [ktPartitionX, ktPartition]
    rw [C108_half_numbers root k k' c u _ (fun i j => hk _ _), ktHalfRecursiveX_fin root k k' c u d hk, ktHalfRecursiveX_fin root k k' c u d hk]

end

section
variable {X : Type*} [Zero X] {n size : ℕ} [NeZero n] [NeZero size]

/-- If all the values are not numbers, the first candidate is chosen. -/
theorem C108_choose (big : ℝ) (k : X → X → Ext ℝ) (points : Data n X ℝ) (h : ∃ i j, k (points.data i) (points.data j) = nan)
    (c : Fin size → ℤ) (l : List (Fin size → ℤ)) : ktChooseX big k points (c :: l) = .ok c := by
  have hm : ∀ c : Fin size → ℤ, mmdComputeX big k (⟨fun t => points.data (gatherIdx n (c t)), fun _ => 1⟩ : Data size X ℝ) points (.leaf none)
      = .ok nan := fun c => C98_mmd_nan big k (NeZero.pos size) (NeZero.pos n) _ points (.inl rfl) (.inr (.inr h))
  have hl : ∀ l : List (Fin size → ℤ), ∃ vals : List (Ext ℝ), collectMmd (l.map fun _ => (Except.ok nan : Except Err (Ext ℝ))) = .ok vals := by
    intro l
    induction l with
    | nil => exact ⟨[], rfl⟩
    | cons b l ih => obtain ⟨v, hv⟩ := ih; exact ⟨nan :: v, by simp only [List.map_cons, collectMmd, hv]⟩
  obtain ⟨v, hv⟩ := hl l
  simp only [ktChooseX, List.map_cons, collectMmd, hm, hv]
  rfl

example := C108_choose (size := 2) 1000 (fun a b : ℝ => fin 0 / fin (a - b)) (⟨![1, 2, 4], ![1, 1, 1]⟩ : Data 3 ℝ ℝ) ⟨0, 0, by simp⟩ ![1, 2] [![0, 1], ![0, 0]]

/-- Refining from any coreset takes the last row in every place. -/
theorem C108_refine {K : Type*} [Field K] [LinearOrder K] [IsStrictOrderedRing K] (big : K) (k : X → X → Ext K) (pre : Data n X K)
    (h : ∀ i, ∃ j, k (pre.data i) (pre.data j) = nan) (u : Bool) {bs : PyTree (Option ℤ)} (hbs : ValidBlock bs) {m out : ℕ} (hs : 0 < out)
    (c : Data m ℤ K) (ord : List (Fin (m + (out - m)))) :
    ∃ rm, herdingRefineX big k u bs out pre c ord = .ok (⟨fun _ => -1, fun _ => 1⟩, rm) := by
  obtain ⟨a, b, hab⟩ := treeLeavesRepeat_of_valid hbs
  obtain ⟨s, rm, h1, h2, h3⟩ := column_nan big k (NeZero.pos n) (NeZero.pos n) pre pre b a
  have h4 : ∀ i, asVec n rm i = nan := fun i => h3 i (h i)
  have hm : computeMeanX big k pre pre .zero bs = .ok rm := by simp only [computeMeanX, hab, h1]
  refine ⟨rm, ?_⟩
  simp only [herdingRefineX, hm]
  rw [greedySelectionX_const big k pre hbs u (v := -1) (fun i pen s => nanargmax_all fun j => by rw [h4, nan_sub]) hs]

example := C108_refine (K := ℚ) 1000 (fun a b : ℚ => if a = 5 ∨ b = 5 then nan else fin (a * b)) (⟨![1, 5, 2], ![1, 0, 1]⟩ : Data 3 ℚ ℚ) (fun i => ⟨1, by simp⟩) true (bs := .leaf none) (.inl rfl)
  (out := 2) (by norm_num) (⟨![0, 1], ![1, 1]⟩ : Data 2 ℤ ℚ) [0, 1]

/-- If one row of the dataset is not a number (for `k`, whatever `sk`), kernel thinning returns the last row `coreset_size`
times: the halving, the choice and the draws of the baseline do not matter. -/
theorem C108_thinning (big : ℝ) (k sk : X → X → Ext ℝ) (c : Ext ℝ) (u : ℕ → ℝ) (choice : Choice n size ℝ)
    (hc : ChoiceContract choice) (ord : List (Fin (size + (size - size)))) (m : ℕ) (dataset : Data n X ℝ) (hs : size ≤ n)
    (h : ∀ i, ∃ j, k (dataset.data i) (dataset.data j) = nan) :
    ktReduceX big k sk c u choice ord m dataset = .ok ⟨fun _ => -1, fun _ => 1⟩ ∧ ((gatherIdx n (-1) : Fin n) : ℕ) = n - 1 := by
  have hn := NeZero.pos n
  refine ⟨?_, by simp only [gatherIdx]; omega⟩
  have hf : choiceFails n size false = false := by simp [choiceFails]; omega
  obtain ⟨b, hb⟩ : ∃ b, randomSample false true ⟨n, ⟨dataset, (none : Option (Fin n → Unit))⟩⟩ choice = .ok b := by
    obtain ⟨i, -, hi⟩ := C17_sample false true (⟨dataset, none⟩ : DSet n X Unit ℝ) choice hc hn hs
    exact ⟨_, hi⟩
  obtain ⟨j, hj⟩ := h 0
  have hp : ∀ (l : List (Fin size → ℤ)) (e : Fin size → ℤ), ∃ best, ktChooseX big k dataset (l ++ [e]) = .ok best := by
    intro l e
    cases l with
    | nil => exact ⟨e, C108_choose big k dataset ⟨0, j, hj⟩ e []⟩
    | cons a l => exact ⟨a, C108_choose big k dataset ⟨0, j, hj⟩ a (l ++ [e])⟩
  simp only [ktReduceX, gt_iff_lt, not_lt.2 hs, if_false, hb]
  obtain ⟨best, hbest⟩ := hp (ktPartitionX Real.sqrt sk c u dataset.data m) (fun t : Fin size => if h : (t : ℕ) < b.m then b.indices.data ⟨t, h⟩ else 0)
  obtain ⟨rm, hrm⟩ := C108_refine big k dataset h true (bs := .leaf none) (.inl rfl) (NeZero.pos size) ⟨best, fun _ => 1⟩ ord
  simp only [hbest, hrm, dropState]

example := C108_thinning 1000 (fun a b : ℝ => fin 0 / fin (a - b)) (fun a b : ℝ => fin (a * b)) (fin 2) (fun _ => 1 / 3) (firstChoice : Choice 4 2 ℝ) firstChoice_contract (List.finRange _) 1
  ⟨![1, 2, 4, 8], fun _ => 1⟩ (by norm_num) (fun i => ⟨i, by simp⟩)

theorem argminList_mono {α β : Type*} [LinearOrder α] [LinearOrder β] (g : α → β) (hg : ∀ a b, g a ≤ g b ↔ a ≤ b) (l : List α) :
    argminList (l.map g) = argminList l := by
  have key : ∀ l' : List β, (hl : l'.length = l.length) → (∀ i : Fin l.length, l'.get (i.cast hl.symm) = g (l.get i)) → argminList l' = argminList l := by
    intro l' hl hget
    have e : (List.finRange l'.length) = (List.finRange l.length).map (Fin.cast hl.symm) := by
      apply List.ext_getElem
      · simp [hl]
      · intro i h1 h2
        simp
    have hlt : ∀ i j : Fin l.length, l'.get (i.cast hl.symm) < l'.get (j.cast hl.symm) ↔ l.get i < l.get j := fun i j => by
      rw [← not_le, ← not_le, hget, hget, hg]
    have hmap : ((List.finRange l.length).map (Fin.cast hl.symm)).argmin (fun i => l'.get i) = ((List.finRange l.length).argmin (fun i => l.get i)).map (Fin.cast hl.symm) := by
      unfold List.argmin
      have : ∀ (q : List (Fin l.length)) (o : Option (Fin l.length)),
          (q.map (Fin.cast hl.symm)).foldl (List.argAux fun b c => l'.get b < l'.get c) (o.map (Fin.cast hl.symm))
            = (q.foldl (List.argAux fun b c => l.get b < l.get c) o).map (Fin.cast hl.symm) := by
        intro q
        induction q with
        | nil => intro o; rfl
        | cons t q ih =>
          intro o
          simp only [List.map_cons, List.foldl_cons]
          rw [← ih]
          congr 1
          cases o with
          | none => rfl
          | some s =>
            simp only [List.argAux, Option.map_some]
            by_cases hc : l.get t < l.get s
            · rw [if_pos hc, if_pos ((hlt t s).2 hc)]
              rfl
            · rw [if_neg hc, if_neg (fun h => hc ((hlt t s).1 h))]
              rfl
      exact this _ none
    unfold argminList
    rw [e, hmap]
    cases (List.finRange l.length).argmin (fun i => l.get i) <;> rfl
  refine key _ (by simp) fun i => ?_
  simp

theorem argminListX_fin (l : List ℝ) : argminListX (l.map fin) = argminList l := by
  have h : (l.map (fin : ℝ → Ext ℝ)).findIdx? Ext.isNan = none := by
    rw [List.findIdx?_eq_none_iff]
    intro x hx
    obtain ⟨a, -, rfl⟩ := List.mem_map.1 hx
    rfl
  simp only [argminListX, h, List.map_map]
  exact argminList_mono _ (fun a b => by simp [Ext.keyMin]) l

theorem ktChooseX_fin (big : ℝ) (k : X → X → Ext ℝ) (k' : X → X → ℝ) (points : Data n X ℝ) (h : ∀ a ∈ Rows points.data, ∀ b ∈ Rows points.data, k a b = fin (k' a b))
    (l : List (Fin size → ℤ)) : ktChooseX big k points l = ktChoose big k' points l := by
  have hm : ∀ c : Fin size → ℤ, mmdComputeX big k (⟨fun t => points.data (gatherIdx n (c t)), fun _ => 1⟩ : Data size X ℝ) points (.leaf none) =
      (match mmdCompute big k' (⟨fun t => points.data (gatherIdx n (c t)), fun _ => 1⟩ : Data size X ℝ) points (.leaf none) with | .error e => .error e | .ok r => .ok (fin r)) :=
    fun c => (C98_metrics_numbers big k k' ⟨fun t => points.data (gatherIdx n (c t)), fun _ => 1⟩ points (.leaf none) (Rows points.data) (.inl rfl) (fun t => .inr ⟨_, rfl⟩) (fun j => .inr ⟨j, rfl⟩) h).1
  have hl : ∀ l : List (Fin size → ℤ), collectMmd (l.map fun c =>
      mmdComputeX big k (⟨fun t => points.data (gatherIdx n (c t)), fun _ => 1⟩ : Data size X ℝ) points (.leaf none)) =
      (match collectMmd (l.map fun c => mmdCompute big k' (⟨fun t => points.data (gatherIdx n (c t)), fun _ => 1⟩ : Data size X ℝ) points (.leaf none)) with
        | .error e => .error e | .ok v => .ok (v.map fin)) := by
    intro l
    induction l with
    | nil => rfl
    | cons b l ih =>
      simp only [List.map_cons, hm b]
      cases mmdCompute big k' (⟨fun t => points.data (gatherIdx n (b t)), fun _ => 1⟩ : Data size X ℝ) points (.leaf none) with
      | error e => rfl
      | ok v =>
        simp only [collectMmd, ih]
        cases collectMmd (l.map fun c => mmdCompute big k' (⟨fun t => points.data (gatherIdx n (c t)), fun _ => 1⟩ : Data size X ℝ) points (.leaf none)) <;> rfl
  simp only [ktChooseX, ktChoose, hl]
  cases collectMmd (l.map fun c => mmdCompute big k' (⟨fun t => points.data (gatherIdx n (c t)), fun _ => 1⟩ : Data size X ℝ) points (.leaf none)) with
  | error e => rfl
  | ok v => simp only [argminListX_fin]

/-- With kernels that are numbers on the rows (and `k` on the zero row, with which blocks are padded), kernel thinning is the
one of numbers. -/
theorem C108_thinning_numbers (big : ℝ) (k sk : X → X → Ext ℝ) (k' sk' : X → X → ℝ) (c : Ext ℝ) (u : ℕ → ℝ) (choice : Choice n size ℝ)
    (ord : List (Fin (size + (size - size)))) (m : ℕ) (dataset : Data n X ℝ)
    (h : ∀ a, (a = 0 ∨ ∃ i, a = dataset.data i) → ∀ b, (b = 0 ∨ ∃ i, b = dataset.data i) → k a b = fin (k' a b))
    (hsk : ∀ i j, sk (dataset.data i) (dataset.data j) = fin (sk' (dataset.data i) (dataset.data j))) :
    ktReduceX big k sk c u choice ord m dataset = ktReduce big k' sk' c u choice ord m dataset := by
  have href : ∀ best : Data size ℤ ℝ, dropState (herdingRefineX big k true (.leaf none) size dataset best ord) =
      dropState (herdingRefine big k' none true (.leaf none) size dataset best none ord) := by
    intro best
    simp only [herdingRefineX, herdingRefine, cachedRowMean, gramianRowMean]
    rw [C98_mean_numbers big k k' dataset dataset .zero (.leaf none) (Rows dataset.data) (.inl rfl) (fun j => .inr ⟨j, rfl⟩) (fun j => .inr ⟨j, rfl⟩) h]
    cases computeMean big k' dataset dataset .zero (.leaf none) with
    | error e => rfl
    | ok rm =>
      simp only
      rw [greedySelectionX_fin big k k' dataset h]
      have : (fun (_ : ℕ) (pen : Fin n → Ext ℝ) (s : ℕ) => nanargmax fun j => asVec n (rm.map fin) j - pen j / fin (s : ℝ)) = herdingSelect none (asVec n rm) := by
        funext i pen s
        simp only [herdingSelect, asVec_map_fin]
        rfl
      rw [this]
      cases greedySelection big k' dataset (.leaf none) true (herdingSelect none (asVec n rm)) size best ord <;> rfl
  simp only [ktReduceX, ktReduce, ktPartitionX_fin Real.sqrt sk sk' c u dataset.data hsk, ktChooseX_fin big k k' dataset h, href]
  rfl

example := C108_thinning_numbers 1000 (fun a b : ℝ => if a = 5 ∨ b = 5 then nan else fin (a * b)) (fun a b : ℝ => fin (a * b)) (fun a b => a * b) (fun a b => a * b) (fin 2) (fun _ => 1 / 3)
  (firstChoice : Choice 4 2 ℝ) (List.finRange _) 1 ⟨![1, 2, 4, 8], fun _ => 1⟩
  (fun a ha b hb => if_neg (by
    have : ∀ a : ℝ, (a = 0 ∨ ∃ i : Fin 4, a = (![1, 2, 4, 8] : Fin 4 → ℝ) i) → a ≠ 5 := by
      rintro a (rfl | ⟨i, rfl⟩)
      · norm_num
      · fin_cases i <;> norm_num
    rintro (h | h)
    exacts [this a ha h, this b hb h])) (fun _ _ => rfl)

end

end Coreax
