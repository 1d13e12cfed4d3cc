import Verif.Lemmas.ExtKernel
import Verif.Props.KernelSums
import Verif.Props.KernelGrad

/-!
# C98: Kernels whose values or derivatives are not numbers
-/

set_option linter.unusedSectionVars false

namespace Coreax

open Spec Ext

namespace NotANumber

section
variable {X K : Type*} [Zero X] [Field K] [LinearOrder K] [IsStrictOrderedRing K]

theorem Visited.row_or_zero {n : ℕ} {x : Fin n → X} {b : Option ℤ} {a : X} (h : Visited x b a) : a = 0 ∨ ∃ i, a = x i := by
  rcases h with h | h
  · exact .inr h
  · exact .inl h.1

theorem effBlock_none (n : ℕ) : effBlock n none ∣ n := by
  simp [effBlock]

theorem computeMeanX_fin (big : K) (k : X → X → Ext K) (k' : X → X → K) {n m : ℕ} (x : Data n X K) (y : Data m X K) (ax : Axis) (bs : PyTree (Option ℤ))
    (h : ∀ a b, (a = 0 ∨ ∃ i, a = x.data i) → (b = 0 ∨ ∃ j, b = y.data j) → k a b = fin (k' a b)) (h' : ∀ a b, (a = 0 ∨ ∃ i, a = y.data i) → (b = 0 ∨ ∃ j, b = x.data j) → k a b = fin (k' a b)) :
    computeMeanX big k x y ax bs = (match computeMean big k' x y ax bs with | .error e => .error e | .ok l => .ok (l.map fin)) := by
  unfold computeMeanX computeMean
  have e1 : ∀ bx bY, columnMeanX big k x y bx bY = (match columnMean big k' x y bx bY with | .error e => .error e | .ok r => .ok (fin r.1, r.2.map fin)) := fun bx bY =>
    columnMeanX_fin big k k' x y bx bY fun a b ha hb => h a b (Visited.row_or_zero ha) (Visited.row_or_zero hb)
  have e2 : ∀ bx bY, columnMeanX big k y x bx bY = (match columnMean big k' y x bx bY with | .error e => .error e | .ok r => .ok (fin r.1, r.2.map fin)) := fun bx bY =>
    columnMeanX_fin big k k' y x bx bY fun a b ha hb => h' a b (Visited.row_or_zero ha) (Visited.row_or_zero hb)
  generalize treeLeavesRepeat bs 2 = L
  rcases L with _ | ⟨bx, _ | ⟨bY, _ | _⟩⟩
  · rfl
  · rfl
  · cases ax
    · simp only [e1]; cases columnMean big k' x y bx bY <;> rfl
    · simp only [e2]; cases columnMean big k' y x bY bx <;> rfl
    · simp only [e1]; cases columnMean big k' x y bx bY <;> rfl
  · rfl

theorem getD_map_fin (l : List K) (i : ℕ) : (l.map fin).getD i 0 = fin (l.getD i 0) := by
  simp only [List.getD_eq_getElem?_getD, List.getElem?_map]
  cases l[i]? <;> rfl

theorem asVec_map_fin (n : ℕ) (l : List K) (j : Fin n) : asVec n (l.map fin) j = fin (asVec n l j) := getD_map_fin l j

/-- The averages of a kernel that is not a number at a pair of rows. -/
theorem mean_none_nan (big : K) (k : X → X → Ext K) {n m : ℕ} (hn : 0 < n) (hm : 0 < m) (x : Data n X K) (y : Data m X K) {bs : PyTree (Option ℤ)} (hbs : ValidBlock bs)
    {i : Fin n} {j : Fin m} (h : k (x.data i) (y.data j) = nan) : computeMeanX big k x y .none bs = .ok [nan] := by
  obtain ⟨a, b, hab⟩ := treeLeavesRepeat_of_valid hbs
  obtain ⟨l, hl⟩ := columnMeanX_nan big k hn hm x y a b (.inl ⟨i, rfl⟩) (.inl ⟨j, rfl⟩) h
  simp only [computeMeanX, hab, hl]

theorem column_nan (big : K) (k : X → X → Ext K) {n m : ℕ} (hn : 0 < n) (hm : 0 < m) (x : Data n X K) (y : Data m X K) (a b : Option ℤ) :
    ∃ s l, columnMeanX big k x y a b = .ok (s, l) ∧ l.length = n ∧ ∀ i : Fin n, (∃ j, k (x.data i) (y.data j) = nan) → asVec n l i = nan := by
  obtain ⟨s, hs⟩ := columnMeanX_row big k hn hm x y a b
  refine ⟨s, _, hs, List.length_ofFn, fun i ⟨j, hj⟩ => ?_⟩
  have hB : 0 < effBlock m b := Nat.pos_of_ne_zero (fun h => hm.ne' (effBlock_eq_zero.1 h))
  simp only [asVec, List.getD_eq_getElem?_getD, List.getElem?_ofFn, i.2, dif_pos, Option.getD_some]
  refine finsetSum_nan (i := (j : ℕ)) (Finset.mem_range.2 (lt_of_lt_of_le j.2 (le_numBlocks_mul m _ hB))) ?_
  have : (paddedRow (y.normalizePZ big) (j : ℕ)).1 = y.data j := by simp [paddedRow, Data.normalizePZ]
  rw [this]
  simp [hj]

/-- The rows and the zero row. -/
def Rows {n : ℕ} (x : Fin n → X) : Set X := {a | a = 0 ∨ ∃ i, a = x i}

section
variable {n : ℕ} [NeZero n] {m : ℕ}

theorem kernelColumnX_fin (k : X → X → Ext K) (k' : X → X → K) (x : Fin n → X) (h : ∀ a ∈ Rows x, ∀ b ∈ Rows x, k a b = fin (k' a b)) (i : ℤ) :
    kernelColumnX k x i = kernelColumn k' x i := funext fun j => h _ (.inr ⟨j, rfl⟩) _ (.inr ⟨_, rfl⟩)

theorem greedyBodyX_fin (k : X → X → Ext K) (k' : X → X → K) (x : Fin n → X) (h : ∀ a ∈ Rows x, ∀ b ∈ Rows x, k a b = fin (k' a b)) (w : Fin n → K) (u : Bool)
    (ord : List (Fin m)) (cw : Fin m → K) (sel : Selection n K) : greedyBodyX k x w u ord cw sel = greedyBody k' x w u ord cw sel := by
  funext i s
  simp only [greedyBodyX, greedyBody, subtractOwnX, subtractOwn, kernelColumnX_fin k k' x h]

theorem initPenaltyX_fin (big : K) (k : X → X → Ext K) (k' : X → X → K) (pre : Data n X K) (h : ∀ a ∈ Rows pre.data, ∀ b ∈ Rows pre.data, k a b = fin (k' a b)) (bs : PyTree (Option ℤ))
    (c : Data m ℤ K) : initPenaltyX big k pre bs c = initPenalty big k' pre bs c := by
  unfold initPenaltyX initPenalty
  have hp : ∀ a, (a = 0 ∨ ∃ t, a = pre.data (gatherIdx n (c.data t))) → a ∈ Rows pre.data := fun a ha => by
    rcases ha with rfl | ⟨t, rfl⟩
    exacts [.inl rfl, .inr ⟨_, rfl⟩]
  dsimp only
  rw [computeMeanX_fin big k k' (Data.ofArray pre.data) ⟨fun t => pre.data (gatherIdx n (c.data t)), c.weights⟩ .one bs
    (fun a b ha hb => h a ha b (hp b hb)) (fun a b ha hb => h a (hp a ha) b hb)]
  cases computeMean big k' (Data.ofArray pre.data) ⟨fun t => pre.data (gatherIdx n (c.data t)), c.weights⟩ .one bs with
  | error e => rfl
  | ok l => simp only [asVec_map_fin, fin_mul_fin]

theorem greedySelectionX_fin (big : K) (k : X → X → Ext K) (k' : X → X → K) (pre : Data n X K) (h : ∀ a ∈ Rows pre.data, ∀ b ∈ Rows pre.data, k a b = fin (k' a b)) (bs : PyTree (Option ℤ))
    (u : Bool) (sel : Selection n K) (out : ℕ) (c : Data m ℤ K) (ord : List (Fin (m + (out - m)))) :
    greedySelectionX big k pre bs u sel out c ord = greedySelection big k' pre bs u sel out c ord := by
  simp only [greedySelectionX, greedySelection, greedyBodyX_fin k k' pre.data h, initPenaltyX_fin big k k' pre h]
  cases initPenalty big k' pre bs (padIndices c out) <;> rfl

/-- A selection that always gives the same index. -/
theorem greedySelectionX_const (big : K) (k : X → X → Ext K) (pre : Data n X K) {bs : PyTree (Option ℤ)} (hbs : ValidBlock bs)
    (u : Bool) {sel : Selection n K} {v : ℤ} (hsel : ∀ i pen s, sel i pen s = v) {out : ℕ} (hout : 0 < out) (c : Data m ℤ K) (ord : List (Fin (m + (out - m)))) :
    greedySelectionX big k pre bs u sel out c ord = .ok ⟨fun _ => v, fun _ => 1⟩ := by
  have hi : ∃ r, initPenaltyX big k pre bs (padIndices c out) = .ok r := by
    unfold initPenaltyX
    obtain ⟨a, b, hab⟩ := treeLeavesRepeat_of_valid hbs
    obtain ⟨s, l, h1, -, -⟩ := column_nan big k (NeZero.pos n) (show 0 < m + (out - m) by omega) (Data.ofArray pre.data)
      ⟨fun t => pre.data (gatherIdx n ((padIndices c out).data t)), (padIndices c out).weights⟩ a b
    simp only [computeMeanX, hab, h1]
    exact ⟨_, rfl⟩
  obtain ⟨⟨pen, size⟩, hr⟩ := hi
  simp only [greedySelectionX, hr, Except.ok.injEq, Data.mk.injEq, and_true]
  have := forLoop_inv (P := fun i (s : GreedyState n (m + (out - m)) K) => ∀ t : Fin (m + (out - m)), t.val < i → s.idx t = v) out
    (fun i => greedyBodyX k pre.data pre.weights u ord (padIndices c out).weights sel (i.castLE (out_le_padded m out)))
    ⟨(padIndices c out).data, pen, size⟩ (fun t ht => by omega) (fun i s hs t ht => by
      simp only [greedyBodyX, hsel]
      by_cases h : t = i.castLE (out_le_padded m out)
      · rw [h, Function.update_self]
      · rw [Function.update_of_ne h]
        have : t.val ≠ i.val := fun h' => h (Fin.ext h')
        exact hs t (by omega))
  exact funext fun t => this _ t.2

theorem nanargmin_all {f : Fin n → Ext K} (h : ∀ i, f i = nan) : nanargmin f = -1 := by rw [nanargmin, if_pos h]

theorem nanargmax_all {f : Fin n → Ext K} (h : ∀ i, f i = nan) : nanargmax f = -1 := by rw [nanargmax, if_pos h]

end

end

end NotANumber

open NotANumber

section
variable {X K : Type*} [Zero X] [Field K] [LinearOrder K] [IsStrictOrderedRing K]

/-- As long as the kernel gives numbers on the rows (and the zero rows that padding adds) the averages are those of numbers. -/
theorem C98_mean_numbers (big : K) (k : X → X → Ext K) (k' : X → X → K) {n m : ℕ} (x : Data n X K) (y : Data m X K) (ax : Axis) (bs : PyTree (Option ℤ))
    (S : Set X) (h0 : 0 ∈ S) (hx : ∀ i, x.data i ∈ S) (hy : ∀ j, y.data j ∈ S) (h : ∀ a ∈ S, ∀ b ∈ S, k a b = fin (k' a b)) :
    computeMeanX big k x y ax bs = (match computeMean big k' x y ax bs with | .error e => .error e | .ok l => .ok (l.map fin)) :=
  have hx' : ∀ a, (a = 0 ∨ ∃ i, a = x.data i) → a ∈ S := fun a ha => by rcases ha with rfl | ⟨i, rfl⟩; exacts [h0, hx i]
  have hy' : ∀ a, (a = 0 ∨ ∃ i, a = y.data i) → a ∈ S := fun a ha => by rcases ha with rfl | ⟨i, rfl⟩; exacts [h0, hy i]
  computeMeanX_fin big k k' x y ax bs (fun a b ha hb => h a (hx' a ha) b (hy' b hb)) (fun a b ha hb => h a (hy' a ha) b (hx' b hb))

example := C98_mean_numbers (K := ℚ) 1000 (fun a b : ℚ => if a = 5 ∧ b = 5 then nan else fin (a * b)) (fun a b => a * b) ⟨![1, 2], ![1, 1]⟩ ⟨![3], ![1]⟩ .none (.leaf (some 2)) {a | a ≠ 5}
  (by norm_num) (by decide +kernel) (by decide +kernel) (fun a ha b _ => if_neg fun h => ha h.1)

/-- One pair of rows at which the kernel is not a number: the average over all pairs, and the averages of its row and its
column, are not numbers either, whatever the weights of the two rows (zero included) and the block sizes. -/
theorem C98_mean_nan (big : K) (k : X → X → Ext K) {n m : ℕ} (x : Data n X K) (y : Data m X K) {bs : PyTree (Option ℤ)} (hbs : ValidBlock bs)
    {i : Fin n} {j : Fin m} (h : k (x.data i) (y.data j) = nan) (h' : k (y.data j) (x.data i) = nan) :
    computeMeanX big k x y .none bs = .ok [nan] ∧
      (∃ l, computeMeanX big k x y .one bs = .ok l ∧ l.length = n ∧ asVec n l i = nan) ∧
      ∃ l, computeMeanX big k x y .zero bs = .ok l ∧ l.length = m ∧ asVec m l j = nan := by
  have hn : 0 < n := i.pos
  have hm : 0 < m := j.pos
  refine ⟨mean_none_nan big k hn hm x y hbs h, ?_, ?_⟩
  · obtain ⟨a, b, hab⟩ := treeLeavesRepeat_of_valid hbs
    obtain ⟨s, l, h1, h2, h3⟩ := column_nan big k hn hm x y a b
    exact ⟨l, by simp only [computeMeanX, hab, h1], h2, h3 i ⟨j, h⟩⟩
  · obtain ⟨a, b, hab⟩ := treeLeavesRepeat_of_valid hbs
    obtain ⟨s, l, h1, h2, h3⟩ := column_nan big k hm hn y x b a
    exact ⟨l, by simp only [computeMeanX, hab, h1], h2, h3 j ⟨i, h'⟩⟩

/-- The row that is not a number has weight zero. -/
example := C98_mean_nan (K := ℚ) 1000 (fun a b : ℚ => if a = 5 ∨ b = 5 then nan else fin (a * b)) ⟨![1, 2], ![1, 1]⟩ ⟨![3, 5], ![1, 0]⟩ (bs := .leaf none) (.inl rfl)
  (i := 0) (j := 1) (by decide +kernel) (by decide +kernel)

/-- Padding is only harmless if the kernel is a number at the zero row: otherwise the average is not a number for every
block size that does not divide the number of rows, although without blocks it is a number. -/
theorem C98_padding (big : K) (k : X → X → Ext K) (k' : X → X → K) {n m : ℕ} (x : Data n X K) (y : Data m X K) (hx : ∑ i, x.weights i ≠ 0) (hy : ∑ j, y.weights j ≠ 0)
    (h : ∀ i j, k (x.data i) (y.data j) = fin (k' (x.data i) (y.data j))) (i : Fin n) (h0 : k (x.data i) 0 = nan) {b : ℕ} (hb : 0 < b) (hbm : b < m) (hd : ¬ b ∣ m) :
    computeMeanX big k x y .none (.leaf (some (b : ℤ))) = .ok [nan] ∧
      computeMeanX big k x y .none (.leaf none) = .ok [fin (avg x.weights fun i => avg y.weights fun j => k' (x.data i) (y.data j))] := by
  have hn : 0 < n := i.pos
  have hm : 0 < m := by omega
  constructor
  · have he : effBlock m (some (b : ℤ)) = b := by
      simp only [effBlock]
      omega
    obtain ⟨l, hl⟩ := columnMeanX_nan big k hn hm x y (some (b : ℤ)) (some (b : ℤ)) (.inl ⟨i, rfl⟩) (.inr ⟨rfl, by rwa [he]⟩) h0
    have ht : treeLeavesRepeat (.leaf (some (b : ℤ)) : PyTree (Option ℤ)) 2 = [some (b : ℤ), some (b : ℤ)] := rfl
    simp only [computeMeanX, ht, hl]
  · have ht : treeLeavesRepeat (.leaf none : PyTree (Option ℤ)) 2 = [none, none] := rfl
    have h1 := C05_mean_none big k' hn hm x y hx hy (.leaf none) (.inl rfl)
    have h2 := columnMeanX_fin big k k' x y none none fun a b ha hb => by
      rcases ha with ⟨i, rfl⟩ | ⟨_, ha⟩
      · rcases hb with ⟨j, rfl⟩ | ⟨_, hb⟩
        · exact h i j
        · exact absurd (effBlock_none m) hb
      · exact absurd (effBlock_none n) ha
    simp only [computeMean, ht] at h1
    simp only [computeMeanX, ht, h2]
    generalize columnMean big k' x y none none = r at h1 ⊢
    cases r with
    | error e => cases h1
    | ok r =>
      simp only [Except.ok.injEq, List.cons.injEq, and_true] at h1
      simp only [h1]

/-- The Coulomb-like kernel 1/(ab), infinite or not a number at zero. -/
example := C98_padding (K := ℚ) 1000 (fun a b : ℚ => fin 1 / fin a * (fin b / fin b)) (fun a b => 1 / a * (b / b)) ⟨![1, 2], ![1, 1]⟩ ⟨![3, 4, 5], ![1, 1, 1]⟩
  (by norm_num [Fin.sum_univ_succ]) (by norm_num [Fin.sum_univ_succ]) (by decide +kernel) 0 (by decide +kernel) (b := 2) (by norm_num) (by norm_num) (by norm_num)

/-- With numbers on the rows and the zero row, kernel herding and Stein thinning are those of numbers. -/
theorem C98_reduce_numbers {n : ℕ} [NeZero n] (big : K) (k : X → X → Ext K) (k' : X → X → K) (pre : Data n X K) (S : Set X) (h0 : 0 ∈ S) (hx : ∀ i, pre.data i ∈ S)
    (h : ∀ a ∈ S, ∀ b ∈ S, k a b = fin (k' a b)) (u : Bool) (bs : PyTree (Option ℤ)) (size : ℕ) (reg : Option (SteinReg n K)) (ord : List (Fin (size + (size - size)))) :
    (∀ r, herdingReduceX big k u bs size pre ord = .ok r → ∃ l, r.2 = l.map fin ∧ herdingReduce big k' none u bs size pre none ord = .ok (r.1, l)) ∧
      (∀ e, herdingReduceX big k u bs size pre ord = .error e ↔ herdingReduce big k' none u bs size pre none ord = .error e) ∧
      steinReduceX big k u bs size pre reg ord = steinReduce big k' u bs size pre reg ord := by
  have hS : ∀ a ∈ Rows pre.data, a ∈ S := fun a ha => by rcases ha with rfl | ⟨i, rfl⟩; exacts [h0, hx i]
  have hR : ∀ a ∈ Rows pre.data, ∀ b ∈ Rows pre.data, k a b = fin (k' a b) := fun a ha b hb => h a (hS a ha) b (hS b hb)
  have key : herdingReduceX big k u bs size pre ord = (match herdingReduce big k' none u bs size pre none ord with | .error e => .error e | .ok r => .ok (r.1, r.2.map fin)) := by
    simp only [herdingReduceX, herdingReduce, herdingRefine, cachedRowMean, gramianRowMean]
    cases (initialCoresubset 0 size n : Except Err (Data size ℤ K)) with
    | error e => rfl
    | ok c =>
      simp only
      rw [C98_mean_numbers big k k' pre pre .zero bs S h0 hx hx h]
      cases computeMean big k' pre pre .zero bs with
      | error e => rfl
      | ok rm =>
        simp only
        rw [greedySelectionX_fin big k k' pre hR]
        have : (fun (_ : ℕ) (pen : Fin n → Ext K) (s : ℕ) => nanargmax fun j => asVec n (rm.map fin) j - pen j / fin (s : K)) = herdingSelect none (asVec n rm) := by
          funext i pen s
          simp only [herdingSelect, asVec_map_fin]
          rfl
        rw [this]
        cases greedySelection big k' pre bs u (herdingSelect none (asVec n rm)) size c ord <;> rfl
  refine ⟨fun r hr => ?_, fun e => ?_, ?_⟩
  · rw [key] at hr
    cases hh : herdingReduce big k' none u bs size pre none ord with
    | error e => rw [hh] at hr; cases hr
    | ok r' =>
      rw [hh] at hr
      simp only [Except.ok.injEq] at hr
      exact ⟨r'.2, by rw [← hr], by rw [← hr]⟩
  · rw [key]
    cases herdingReduce big k' none u bs size pre none ord <;> simp
  · simp only [steinReduceX, steinReduce, steinRefine]
    cases (initialCoresubset 0 size n : Except Err (Data size ℤ K)) with
    | error e => rfl
    | ok c =>
      simp only
      rw [greedySelectionX_fin big k k' pre hR]
      have hd : ∀ j, k (pre.data j) (pre.data j) = fin (k' (pre.data j) (pre.data j)) := fun j => hR _ (.inr ⟨j, rfl⟩) _ (.inr ⟨j, rfl⟩)
      simp only [hd]
      cases reg <;> rfl

example := C98_reduce_numbers (K := ℚ) 1000 (fun a b : ℚ => if a = 5 ∧ b = 5 then nan else fin (a * b)) (fun a b => a * b) (⟨![1, 2], ![1, 1]⟩ : Data 2 ℚ ℚ) {a | a ≠ 5}
  (by norm_num) (by decide +kernel) (fun a ha b _ => if_neg fun h => ha h.1) true (.leaf none) 2 none [0, 1]

/-- If every row has a partner with which the kernel is not a number — for instance when one row, even of weight zero, has
an entry that is not a number — kernel herding selects the last row in every step, even with `unique=True`. -/
theorem C98_herding {n : ℕ} [NeZero n] (big : K) (k : X → X → Ext K) (pre : Data n X K) (h : ∀ i, ∃ j, k (pre.data i) (pre.data j) = nan) (u : Bool) {bs : PyTree (Option ℤ)}
    (hbs : ValidBlock bs) {size : ℕ} (hs : 0 < size) (hn : size ≤ n) (ord : List (Fin (size + (size - size)))) :
    (∃ rm, herdingReduceX big k u bs size pre ord = .ok (⟨fun _ => -1, fun _ => 1⟩, rm) ∧ rm.length = n ∧ ∀ i, asVec n rm i = nan) ∧
      ((gatherIdx n (-1) : Fin n) : ℕ) = n - 1 := by
  constructor
  · obtain ⟨a, b, hab⟩ := treeLeavesRepeat_of_valid hbs
    obtain ⟨s, rm, h1, h2, h3⟩ := column_nan big k (NeZero.pos n) (NeZero.pos n) pre pre b a
    have h4 : ∀ i, asVec n rm i = nan := fun i => h3 i (h i)
    refine ⟨rm, ?_, h2, h4⟩
    have hm : computeMeanX big k pre pre .zero bs = .ok rm := by simp only [computeMeanX, hab, h1]
    simp only [herdingReduceX, initialCoresubset, gt_iff_lt, not_lt.2 hn, if_false, hm]
    rw [greedySelectionX_const big k pre hbs u (v := -1) (fun i pen s => nanargmax_all fun j => by rw [h4, nan_sub]) hs]
  · have := NeZero.pos n
    simp only [gatherIdx]
    omega

/-- The second row, of weight zero, is bad. -/
example := C98_herding (K := ℚ) 1000 (fun a b : ℚ => if a = 5 ∨ b = 5 then nan else fin (a * b)) (⟨![1, 5, 2], ![1, 0, 1]⟩ : Data 3 ℚ ℚ) (fun i => ⟨1, by simp⟩) true (bs := .leaf none) (.inl rfl)
  (size := 2) (by norm_num) (by norm_num) [0, 1]

/-- If the kernel is not a number on the diagonal, Stein thinning selects the last row in every step, even with
`unique=True` and whatever the regularisation. -/
theorem C98_stein {n : ℕ} [NeZero n] (big : K) (k : X → X → Ext K) (pre : Data n X K) (h : ∀ i, k (pre.data i) (pre.data i) = nan) (u : Bool) {bs : PyTree (Option ℤ)}
    (hbs : ValidBlock bs) {size : ℕ} (hs : 0 < size) (hn : size ≤ n) (reg : Option (SteinReg n K)) (ord : List (Fin (size + (size - size)))) :
    steinReduceX big k u bs size pre reg ord = .ok ⟨fun _ => -1, fun _ => 1⟩ ∧ ((gatherIdx n (-1) : Fin n) : ℕ) = n - 1 := by
  constructor
  · simp only [steinReduceX, initialCoresubset, gt_iff_lt, not_lt.2 hn, if_false]
    cases reg <;> exact greedySelectionX_const big k pre hbs u (v := -1) (fun i pen s => nanargmin_all fun j => by simp only [h, nan_add, nan_sub]) hs _ _
  · have := NeZero.pos n
    simp only [gatherIdx]
    omega

example := C98_stein (K := ℚ) 1000 (fun a b : ℚ => fin 1 / fin (a - b) * fin 0) (⟨![1, 5, 2], ![1, 0, 1]⟩ : Data 3 ℚ ℚ) (by decide +kernel) true (bs := .leaf none) (.inl rfl)
  (size := 2) (by norm_num) (by norm_num) none [0, 1]

end

section
variable {X : Type*} [Zero X]

/-- With numbers on the rows and the zero row the discrepancies are those of numbers. -/
theorem C98_metrics_numbers (big : ℝ) (k : X → X → Ext ℝ) (k' : X → X → ℝ) {n m : ℕ} (x : Data n X ℝ) (y : Data m X ℝ) (bs : PyTree (Option ℤ))
    (S : Set X) (h0 : 0 ∈ S) (hx : ∀ i, x.data i ∈ S) (hy : ∀ j, y.data j ∈ S) (h : ∀ a ∈ S, ∀ b ∈ S, k a b = fin (k' a b)) :
    mmdComputeX big k x y bs = (match mmdCompute big k' x y bs with | .error e => .error e | .ok r => .ok (fin r)) ∧
      ksdComputeX big k y bs = (match ksdCompute big k' y bs none none with | .error e => .error e | .ok r => .ok (fin r)) := by
  have hs : ∀ r : ℝ, (fin r).max0.sqrtX = fin (Real.sqrt (max 0 r)) := fun r => by
    simp [Ext.max0, Ext.sqrtX]
  constructor
  · unfold mmdComputeX mmdCompute mmdSquaredX mmdSquared clipSqrt
    generalize treeLeavesRepeat bs 2 = L
    rcases L with _ | ⟨a, _ | ⟨b, _ | _⟩⟩
    · rfl
    · rfl
    · simp only [C98_mean_numbers big k k' x x .none _ S h0 hx hx h, C98_mean_numbers big k k' y y .none _ S h0 hy hy h, C98_mean_numbers big k k' x y .none _ S h0 hx hy h]
      cases computeMean big k' x x .none (.node [.leaf a, .leaf a]) with
      | error e => rfl
      | ok xx =>
        cases computeMean big k' y y .none (.node [.leaf b, .leaf b]) with
        | error e => rfl
        | ok yy =>
          cases computeMean big k' x y .none (.node [.leaf a, .leaf b]) with
          | error e => rfl
          | ok xy => simp only [meanScalar, getD_map_fin, fin_add_fin, fin_mul_fin, fin_sub_fin, hs]
    · rfl
  · unfold ksdComputeX ksdCompute ksdSquaredX ksdSquared clipSqrt
    rw [C98_mean_numbers big k k' y y .none bs S h0 hy hy h]
    cases computeMean big k' y y .none bs with
    | error e => rfl
    | ok l => simp only [meanScalar, getD_map_fin, hs, add_zero, sub_zero]

example (k : ℝ → ℝ → ℝ) := C98_metrics_numbers 1000 (fun a b : ℝ => fin 1 / fin (a - b - 10) * fin (k a b)) (fun a b => 1 / (a - b - 10) * k a b) ⟨![1, 2], ![1, 1]⟩ ⟨![3], ![1]⟩ (.leaf (some 2)) (Set.Icc 0 3)
  (by norm_num) (by intro i; fin_cases i <;> norm_num) (by intro i; fin_cases i; norm_num) (fun a ha b hb => by
    have : a - b - 10 ≠ 0 := by have := ha.2; have := hb.1; linarith [ha.2, hb.1] |> fun (h : a - b - 10 < 0) => h.ne
    rw [fin_div_fin this, fin_mul_fin])

/-- A pair of rows, even of weight zero, at which the kernel is not a number: MMD is not a number. -/
theorem C98_mmd_nan (big : ℝ) (k : X → X → Ext ℝ) {n m : ℕ} (hn : 0 < n) (hm : 0 < m) (x : Data n X ℝ) (y : Data m X ℝ) {bs : PyTree (Option ℤ)} (hbs : ValidBlock bs)
    (h : (∃ i j, k (x.data i) (x.data j) = nan) ∨ (∃ i j, k (x.data i) (y.data j) = nan) ∨ ∃ i j, k (y.data i) (y.data j) = nan) :
    mmdComputeX big k x y bs = .ok nan := by
  obtain ⟨a, b, hab⟩ := treeLeavesRepeat_of_valid hbs
  have hok : ∀ {n m : ℕ} (_ : 0 < n) (_ : 0 < m) (x : Data n X ℝ) (y : Data m X ℝ) (a b : Option ℤ), ∃ r, computeMeanX big k x y .none (.node [.leaf a, .leaf b]) = .ok [r] := fun hn hm x y a b => by
    obtain ⟨s, l, h1, -, -⟩ := column_nan big k hn hm x y a b
    have ht : treeLeavesRepeat (.node [.leaf a, .leaf b] : PyTree (Option ℤ)) 2 = [a, b] := rfl
    exact ⟨s, by simp only [computeMeanX, ht, h1]⟩
  obtain ⟨xx, h1⟩ := hok hn hn x x a a
  obtain ⟨yy, h2⟩ := hok hm hm y y b b
  obtain ⟨xy, h3⟩ := hok hn hm x y a b
  have hv : ∀ a b : Option ℤ, ValidBlock (.node [.leaf a, .leaf b]) := fun a b => .inr rfl
  have hr : xx + yy - fin 2 * xy = nan := by
    rcases h with ⟨i, j, h⟩ | ⟨i, j, h⟩ | ⟨i, j, h⟩
    · have := mean_none_nan big k hn hn x x (hv a a) h
      rw [h1] at this
      simp only [Except.ok.injEq, List.cons.injEq, and_true] at this
      simp [this]
    · have := mean_none_nan big k hn hm x y (hv a b) h
      rw [h3] at this
      simp only [Except.ok.injEq, List.cons.injEq, and_true] at this
      simp [this]
    · have := mean_none_nan big k hm hm y y (hv b b) h
      rw [h2] at this
      simp only [Except.ok.injEq, List.cons.injEq, and_true] at this
      simp [this]
  simp only [mmdComputeX, mmdSquaredX, hab, h1, h2, h3, List.getD_cons_zero, hr]
  rfl

example := C98_mmd_nan 1000 (fun a b : ℝ => fin 0 / fin (a - b)) (n := 2) (m := 1) (by norm_num) (by norm_num) ⟨![1, 2], ![1, 1]⟩ ⟨![3], ![0]⟩ (bs := .leaf none) (.inl rfl)
  (.inr (.inr ⟨0, 0, by simp⟩))

/-- And so is KSD. -/
theorem C98_ksd_nan (big : ℝ) (k : X → X → Ext ℝ) {m : ℕ} (y : Data m X ℝ) {bs : PyTree (Option ℤ)} (hbs : ValidBlock bs)
    {i j : Fin m} (h : k (y.data i) (y.data j) = nan) : ksdComputeX big k y bs = .ok nan := by
  simp only [ksdComputeX, ksdSquaredX, mean_none_nan big k i.pos i.pos y y hbs h]
  rfl

example := C98_ksd_nan 1000 (fun a b : ℝ => fin 0 / fin (a - b)) ⟨![3, 4], ![1, 0]⟩ (bs := .leaf none) (.inl rfl) (i := 1) (j := 1) (by simp)

end

/-! ### Kernels that have no derivative at distance zero -/

section
variable {d : ℕ}

namespace Spec

/-- Kernels with a part that divides by the distance in its derivatives (exponential, periodic and Matérn kernels, alone or
in sums and products and non-zero powers). -/
def Rough : KExpr d → Prop
  | .exponential _ _ => True
  | .periodic _ _ _ => True
  | .matern _ _ _ => True
  | .power k _ => Rough k
  | .add a b => Rough a ∨ Rough b
  | .mul a b => Rough a ∨ Rough b
  | _ => False

end Spec

namespace NotANumber

theorem nrm_self (x : Vec d) : nrm x x = 0 := by simp [nrm]

theorem zero_quot (a : ℝ) : (fin a / fin 0 : Ext ℝ) * fin 0 = nan := by
  change Ext.mul (Ext.div _ _) _ = nan
  simp only [Ext.div, if_true]
  split_ifs <;> simp [Ext.mul, Ext.signMul]

theorem zero_quot_sub (a b : ℝ) : (fin a / fin 0 - fin b / fin 0 : Ext ℝ) * fin 0 = nan := by
  change Ext.mul (Ext.add (Ext.div _ _) (Ext.neg (Ext.div _ _))) _ = nan
  simp only [Ext.div, if_true]
  split_ifs <;> simp [Ext.mul, Ext.signMul, Ext.add, Ext.neg]

/-- The derivatives at `x = y` are not numbers. -/
structure NanAt (k : KSemX d) (x : Vec d) : Prop where
  gradX : ∀ i, k.gradX x x i = nan
  gradY : ∀ i, k.gradY x x i = nan
  div : k.div x x = nan

theorem NanAt.rough (K : KExpr d) (hc : K.check = .ok ()) (hr : Rough K) (hd : 0 < d) (x : Vec d) : NanAt K.semX x := by
  induction K with
  | const c => exact hr.elim
  | linear s c => exact hr.elim
  | polynomial s c n => exact hr.elim
  | laplacian l s => exact hr.elim
  | squaredExponential l s => exact hr.elim
  | pcimq l s => exact hr.elim
  | rationalQuadratic l s a => exact hr.elim
  | poisson r s => exact hr.elim
  | stein k s _ => exact hr.elim
  | exponential l s =>
    refine ⟨fun i => ?_, fun i => ?_, ?_⟩
    · simp [KExpr.semX, exponentialX, nrm_self, fin0_div_fin0]
    · simp [KExpr.semX, exponentialX, nrm_self, fin0_div_fin0]
    · simp only [KExpr.semX, exponentialX, nrm_self, sub_self, mul_zero, ne_eq, OfNat.ofNat_ne_zero, not_false_eq_true, zero_pow, fin0_div_fin0, nan_mul]
      rw [finsetSum_nan (Finset.mem_univ ⟨0, hd⟩) rfl, nan_add, mul_nan]
  | periodic l s p =>
    refine ⟨fun i => ?_, fun i => ?_, ?_⟩
    · simp [KExpr.semX, periodicX, nrm_self, fin0_div_fin0]
    · simp [KExpr.semX, periodicX, nrm_self, fin0_div_fin0]
    · simp only [KExpr.semX, periodicX, nrm_self, sub_self, fin0_div_fin0, neg_nan, nan_mul, nan_sub, nan_add]
      rw [finsetSum_nan (Finset.mem_univ ⟨0, hd⟩) rfl, add_nan, mul_nan]
  | matern l s n =>
    refine ⟨fun i => ?_, fun i => ?_, ?_⟩
    · simp only [KExpr.semX, maternX, nrm_self, sub_self, mul_zero, zero_quot]
    · simp only [KExpr.semX, maternX, nrm_self, sub_self, mul_zero, neg_zero, zero_quot]
    · simp only [KExpr.semX, maternX, nrm_self, sub_self, mul_zero, neg_zero, ne_eq, OfNat.ofNat_ne_zero, not_false_eq_true, zero_pow, zero_quot_sub, nan_mul, nan_add]
      exact finsetSum_nan (Finset.mem_univ ⟨0, hd⟩) rfl
  | power k n ih =>
    have h := ih (bind_ok hc).1 hr
    refine ⟨fun i => ?_, fun i => ?_, ?_⟩
    · simp [KExpr.semX, powerX, h.gradX]
    · simp [KExpr.semX, powerX, h.gradY]
    · simp [KExpr.semX, powerX, h.div]
  | add a b iha ihb =>
    have hs := bind_ok hc
    rcases hr with hr | hr
    · have h := iha hs.1 hr
      exact ⟨fun i => by simp [KExpr.semX, addX, h.gradX], fun i => by simp [KExpr.semX, addX, h.gradY], by simp [KExpr.semX, addX, h.div]⟩
    · have h := ihb hs.2 hr
      exact ⟨fun i => by simp [KExpr.semX, addX, h.gradX], fun i => by simp [KExpr.semX, addX, h.gradY], by simp [KExpr.semX, addX, h.div]⟩
  | mul a b iha ihb =>
    have hs := bind_ok hc
    by_cases hab : a = b
    · subst hab
      have h := iha hs.1 (by rcases hr with hr | hr <;> exact hr)
      exact ⟨fun i => by simp [KExpr.semX, mulX, h.gradX], fun i => by simp [KExpr.semX, mulX, h.gradY], by simp [KExpr.semX, mulX, h.div]⟩
    · rcases hr with hr | hr
      · have h := iha hs.1 hr
        exact ⟨fun i => by simp [KExpr.semX, mulX, h.gradX, hab], fun i => by simp [KExpr.semX, mulX, h.gradY, hab], by simp [KExpr.semX, mulX, h.div, hab]⟩
      · have h := ihb hs.2 hr
        exact ⟨fun i => by simp [KExpr.semX, mulX, h.gradX, hab], fun i => by simp [KExpr.semX, mulX, h.gradY, hab], by simp [KExpr.semX, mulX, h.div, hab]⟩

end NotANumber

/-- The derivatives of an exponential, periodic or Matérn kernel, and of every sum, product and power with such a part, are
not numbers where the two arguments are equal: the code divides by their distance. -/
theorem C98_rough (K : KExpr d) (hc : K.check = .ok ()) (hr : Rough K) (hd : 0 < d) (x : Vec d) (i : Fin d) :
    K.semX.gradX x x i = nan ∧ K.semX.gradY x x i = nan ∧ K.semX.div x x = nan :=
  have h := NanAt.rough K hc hr hd x
  ⟨h.gradX i, h.gradY i, h.div⟩

example := C98_rough (.add (locallyPeriodic 1 2 3 4 5) (.power (.linear 1 1) (.int 3)) : KExpr 2) (by norm_num [KExpr.check, locallyPeriodic, checkPos, checkNonneg, checkIntGe, bind, Except.bind])
  (.inl (.inl trivial)) (by norm_num) ![1, 2] 0

/-- So the Stein kernel of such a kernel is not a number on the diagonal. -/
theorem C98_rough_stein (K : KExpr d) (hc : K.check = .ok ()) (hr : Rough K) (hd : 0 < d) (score : Vec d → Vec d) (x : Vec d) :
    (KExpr.stein K score).semX.compute x x = nan := by
  simp [KExpr.semX, steinComputeX, (NanAt.rough K hc hr hd x).div]

example := C98_rough_stein (.matern 1 2 (.int 3) : KExpr 2) (by norm_num [KExpr.check, checkPos, checkNonneg, checkIntGe, bind, Except.bind]) trivial (by norm_num) (fun x => -x) ![1, 2]

/-- Hence KSD with such a kernel is never a number. -/
theorem C98_rough_ksd (K : KExpr d) (hc : K.check = .ok ()) (hr : Rough K) (hd : 0 < d) (score : Vec d → Vec d) (big : ℝ) {m : ℕ} (hm : 0 < m) (y : Data m (Vec d) ℝ) {bs : PyTree (Option ℤ)} (hbs : ValidBlock bs) :
    ksdComputeX big (KExpr.stein K score).semX.compute y bs = .ok nan :=
  C98_ksd_nan big _ y hbs (i := ⟨0, hm⟩) (j := ⟨0, hm⟩) (C98_rough_stein K hc hr hd score _)

example := C98_rough_ksd (.exponential 1 2 : KExpr 2) (by norm_num [KExpr.check, checkPos, checkNonneg, checkIntGe, bind, Except.bind]) trivial (by norm_num) (fun x => -x) 1000 (m := 2) (by norm_num)
  ⟨![![1, 2], ![3, 4]], ![1, 1]⟩ (bs := .leaf (some 1)) (.inl rfl)

/-- And Stein thinning with it returns the last row as many times as it is asked for rows. -/
theorem C98_rough_thinning (K : KExpr d) (hc : K.check = .ok ()) (hr : Rough K) (hd : 0 < d) (score : Vec d → Vec d) (big : ℝ) {n : ℕ} [NeZero n] (pre : Data n (Vec d) ℝ) (u : Bool)
    {bs : PyTree (Option ℤ)} (hbs : ValidBlock bs) {size : ℕ} (hs : 0 < size) (hn : size ≤ n) (reg : Option (SteinReg n ℝ)) (ord : List (Fin (size + (size - size)))) :
    ∃ c : Data size ℤ ℝ, steinReduceX big (KExpr.stein K score).semX.compute u bs size pre reg ord = .ok c ∧
      ∀ t, ((gatherIdx n (c.data t) : Fin n) : ℕ) = n - 1 := by
  obtain ⟨h1, h2⟩ := C98_stein big (KExpr.stein K score).semX.compute pre (fun i => C98_rough_stein K hc hr hd score _) u hbs hs hn reg ord
  exact ⟨_, h1, fun _ => h2⟩

example := C98_rough_thinning (.periodic 1 2 3 : KExpr 2) (by norm_num [KExpr.check, checkPos, checkNonneg, checkIntGe, bind, Except.bind]) trivial (by norm_num) (fun x => -x) 1000
  ⟨![![1, 2], ![3, 4], ![5, 6]], ![1, 1, 1]⟩ true (bs := .leaf none) (.inl rfl) (size := 2) (by norm_num) (by norm_num) none [0, 1]

/-! ### Everywhere else the values are numbers -/

namespace Spec

/-- Pairs of points at which no method of the kernel divides by zero: exponential, periodic and Matérn kernels need different
points, a first power needs a base that is not zero. -/
def RegularAt : KExpr d → Vec d → Vec d → Prop
  | .exponential _ _, x, y => x ≠ y
  | .periodic _ _ p, x, y => x ≠ y ∧ p ≠ 0
  | .matern _ _ _, x, y => x ≠ y
  | .rationalQuadratic _ _ a, _, _ => a ≠ 0
  | .power k n, x, y => RegularAt k x y ∧ (n.toInt ≠ 1 ∨ k.sem.compute x y ≠ 0)
  | .add a b, x, y => RegularAt a x y ∧ RegularAt b x y
  | .mul a b, x, y => RegularAt a x y ∧ RegularAt b x y
  | .stein k _, x, y => RegularAt k x y
  | _, _, _ => True

end Spec

namespace NotANumber

/-- All methods give numbers, those of the kernel of numbers. -/
structure FinAt (k : KSemX d) (k' : KSem d) (x y : Vec d) : Prop where
  compute : k.compute x y = fin (k'.compute x y)
  gradX : ∀ i, k.gradX x y i = fin (k'.gradX x y i)
  gradY : ∀ i, k.gradY x y i = fin (k'.gradY x y i)
  div : k.div x y = fin (k'.div x y)

theorem FinAt.toX (k : KSem d) (x y : Vec d) : FinAt k.toX k x y := ⟨rfl, fun _ => rfl, fun _ => rfl, rfl⟩

theorem FinAt.exponential {l s : ℝ} (hl : 0 < l) {x y : Vec d} (h : x ≠ y) : FinAt (exponentialX l s) (exponentialSem l s) x y := by
  have h1 := (nrm_pos h).ne'
  have h2 : 2 * l ^ 2 ≠ 0 := by positivity
  have h3 : 2 * l ^ 2 * nrm x y ≠ 0 := mul_ne_zero h2 h1
  have h4 : nrm x y ^ 2 ≠ 0 := pow_ne_zero 2 h1
  refine ⟨rfl, fun i => ?_, fun i => ?_, ?_⟩
  · simp only [exponentialX, exponentialSem, fin_div_fin h3, neg_fin, Pi.neg_apply]
  · simp only [exponentialX, exponentialSem, fin_div_fin h3]
  · simp only [exponentialX, exponentialSem, fin_div_fin h1, fin_div_fin h4, fin_mul_fin, fin_add_fin, finsetSum_fin, vdot, Pi.sub_apply]

theorem FinAt.periodic {l s p : ℝ} (hl : 0 < l) (hp : p ≠ 0) {x y : Vec d} (h : x ≠ y) : FinAt (periodicX l s p) (periodicSem l s p) x y := by
  have h1 := (nrm_pos h).ne'
  have h3 : nrm x y * p * l ^ 2 ≠ 0 := by positivity
  refine ⟨rfl, fun i => ?_, fun i => ?_, ?_⟩
  · simp only [periodicX, periodicSem, fin_div_fin h3, fin_mul_fin, neg_fin, Pi.neg_apply]
  · simp only [periodicX, periodicSem, fin_div_fin h3, fin_mul_fin]
  · simp only [periodicX, periodicSem, fin_div_fin h1, neg_fin, fin_sub_fin, fin_mul_fin, fin_add_fin, finsetSum_fin, vdot, Pi.sub_apply, pow_two]

theorem contDiff_maternProfile (l s : ℝ) (p : ℕ) : ContDiff ℝ 2 (maternProfile l s p) := by
  unfold maternProfile
  have hb : ContDiff ℝ 2 (fun r : ℝ => Real.sqrt (2 * p + 1) * r / l) := (contDiff_const.mul contDiff_id).div_const l
  refine ContDiff.mul (((contDiff_const.mul hb.neg.exp).mul contDiff_const).div_const _) ?_
  by_cases h : 0 < p
  · simp only [h, if_true]
    exact ContDiff.sum fun i _ => contDiff_const.mul ((contDiff_const.mul hb).pow _)
  · simp only [h, if_false]
    exact contDiff_const

theorem FinAt.matern (l s : ℝ) (p : ℕ) {x y : Vec d} (h : x ≠ y) : FinAt (maternX l s p) (KSem.ofCompute (maternCompute l s p)) x y := by
  have h1 := (nrm_pos h).ne'
  obtain ⟨ρ, hρ⟩ : ∃ ρ, ρ = maternProfile l s p := ⟨_, rfl⟩
  have hk : ∀ x y : Vec d, maternCompute l s p x y = ρ (Real.sqrt (sqDist x y)) := fun x y => by
    rw [hρ, ← nrm_eq]
    rfl
  have hc : ContDiff ℝ 2 ρ := hρ ▸ contDiff_maternProfile l s p
  have hd1 : ∀ r, HasDerivAt ρ (deriv ρ r) r := fun r => (hc.differentiable (by norm_num) r).hasDerivAt
  have hd2 : ∀ r, HasDerivAt (deriv ρ) (deriv (deriv ρ) r) r := fun r =>
    ((hc.iterate_deriv' 1 1).differentiable (by norm_num) r).hasDerivAt
  have hφ : ∀ t, 0 < t → HasDerivAt (fun t => ρ (Real.sqrt t)) (deriv ρ (Real.sqrt t) * (1 / (2 * Real.sqrt t))) t := fun t ht =>
    (hd1 _).comp t (Real.hasDerivAt_sqrt ht.ne')
  have hright : ∀ z : Vec d, z ≠ y → IsGrad (fun y' => maternCompute l s p z y') (fun i => -(deriv ρ (Real.sqrt (sqDist z y)) / Real.sqrt (sqDist z y)) * (z i - y i)) y := by
    intro z hz
    have h1 := hφ _ (sqDist_pos hz)
    rw [sqDist_comm] at h1
    refine (isGrad_radial z h1).congr (fun w => by rw [hk, sqDist_comm]; rfl) (fun i => ?_)
    rw [sqDist_comm z y]
    change _ = deriv ρ (Real.sqrt (sqDist y z)) * (1 / (2 * Real.sqrt (sqDist y z))) * _
    have : Real.sqrt (sqDist y z) ≠ 0 := (Real.sqrt_pos.2 (sqDist_pos hz.symm)).ne'
    field_simp
    ring
  have hleft : IsGrad (fun x' => maternCompute l s p x' y) (fun i => deriv ρ (Real.sqrt (sqDist x y)) * (1 / (2 * Real.sqrt (sqDist x y))) * (2 * (x i - y i))) x :=
    (isGrad_radial y (hφ _ (sqDist_pos h))).congr (fun w => hk w y) (fun i => rfl)
  obtain ⟨ok, hdiff⟩ := matern_ok l s p h
  have eX := ok.left.unique hleft
  have eY : ∀ z, z ≠ y → (KSem.ofCompute (maternCompute l s p)).gradY z y = fun i => -(deriv ρ (Real.sqrt (sqDist z y)) / Real.sqrt (sqDist z y)) * (z i - y i) := fun z hz =>
    (matern_ok l s p hz).1.right.unique (hright z hz)
  have hh : HasDerivAt (fun t => -(deriv ρ (Real.sqrt t) / Real.sqrt t)) (-((deriv (deriv ρ) (Real.sqrt (sqDist x y)) * (1 / (2 * Real.sqrt (sqDist x y))) * Real.sqrt (sqDist x y)
      - deriv ρ (Real.sqrt (sqDist x y)) * (1 / (2 * Real.sqrt (sqDist x y)))) / Real.sqrt (sqDist x y) ^ 2)) (sqDist x y) := by
    have hs := Real.hasDerivAt_sqrt (sqDist_pos h).ne'
    exact (((hd2 _).comp _ hs).div hs (Real.sqrt_pos.2 (sqDist_pos h)).ne').neg
  have hdiv := isDiv_radial' (y := y) hh
  have hdiv2 : ∀ v, IsDiv (fun (x : Vec d) i => -(deriv ρ (Real.sqrt (sqDist x y)) / Real.sqrt (sqDist x y)) * (x i - y i)) v x →
      IsDiv (fun x' => (KSem.ofCompute (maternCompute l s p)).gradY x' y) v x := by
    rintro v ⟨G, hG, hv⟩
    refine ⟨G, fun i => IsGrad.congr_nhds (hG i) ?_, hv⟩
    filter_upwards [isOpen_ne.mem_nhds h] with z hz
    rw [eY z hz]
  have eD := (isDiv_ofCompute hdiff).unique (hdiv2 _ hdiv)
  rw [← nrm_eq] at eX eD
  have eY' := eY x h
  rw [← nrm_eq] at eY'
  have h2 : 2 * nrm x y ≠ 0 := mul_ne_zero two_ne_zero h1
  have h3 : 2 * nrm x y * (2 * nrm x y) ≠ 0 := mul_ne_zero h2 h2
  have h4 : 2 * nrm x y ^ 2 * (2 * nrm x y) ≠ 0 := by positivity
  refine ⟨rfl, fun i => ?_, fun i => ?_, ?_⟩
  · rw [eX]
    simp only [maternX, ← hρ, fin_div_fin h2, fin_mul_fin]
    congr 1
    ring
  · rw [eY']
    simp only [maternX, ← hρ, fin_div_fin h2, fin_mul_fin]
    congr 1
    field_simp
  · rw [eD]
    simp only [maternX, ← hρ, fin_div_fin h2, fin_div_fin h3, fin_div_fin h4, fin_mul_fin, fin_sub_fin, fin_add_fin, finsetSum_fin]
    congr 1
    rw [Finset.sum_add_distrib, Finset.sum_const, Finset.card_univ, Fintype.card_fin, nsmul_eq_mul]
    have hq : ∑ i, (x i - y i) * (x i - y i) = nrm x y ^ 2 := (nrm_sq x y).symm
    have e : ∀ i, (deriv (deriv ρ) (nrm x y) / (2 * nrm x y * (2 * nrm x y)) - deriv ρ (nrm x y) / (2 * nrm x y ^ 2 * (2 * nrm x y))) * (2 * (x i - y i)) * (-(2 * (x i - y i)))
        = -(4 * (deriv (deriv ρ) (nrm x y) / (2 * nrm x y * (2 * nrm x y)) - deriv ρ (nrm x y) / (2 * nrm x y ^ 2 * (2 * nrm x y)))) * ((x i - y i) * (x i - y i)) := fun i => by ring
    rw [Finset.sum_congr rfl fun i _ => e i, ← Finset.mul_sum, hq, ← nrm_sq]
    field_simp
    ring

theorem extZpow_fin {c : ℝ} {e : ℤ} (h : c ≠ 0 ∨ 0 ≤ e) : extZpow c e = fin (c ^ e) := by
  rw [extZpow, if_neg]
  rintro ⟨h1, h2⟩
  rcases h with h | h
  · exact h h1
  · omega

theorem FinAt.regular (K : KExpr d) (hc : K.check = .ok ()) (x y : Vec d) (hr : RegularAt K x y) : FinAt K.semX K.sem x y := by
  induction K with
  | const c => exact FinAt.toX _ x y
  | linear s c => exact FinAt.toX _ x y
  | polynomial s c n => exact FinAt.toX _ x y
  | laplacian l s => exact FinAt.toX _ x y
  | squaredExponential l s => exact FinAt.toX _ x y
  | pcimq l s => exact FinAt.toX _ x y
  | rationalQuadratic l s a => exact FinAt.toX _ x y
  | poisson r s => exact FinAt.toX _ x y
  | stein k s ih =>
    have h := ih hc hr
    refine ⟨?_, fun _ => rfl, fun _ => rfl, rfl⟩
    simp only [KExpr.semX, steinComputeX, h.div, h.gradX, h.gradY, h.compute, fin_mul_fin, fin_add_fin, finsetSum_fin, KExpr.sem, KSem.ofCompute, steinCompute, vdot, mul_assoc, ← Finset.mul_sum]
  | exponential l s => exact FinAt.exponential (checkPos_ok (bind_ok hc).1) hr
  | periodic l s p => exact FinAt.periodic (checkPos_ok (bind_ok hc).1) hr.2 hr.1
  | matern l s n => exact FinAt.matern l s _ hr
  | power k n ih =>
    have h := ih (bind_ok hc).1 hr.1
    have hn : 1 ≤ n.toInt := by
      have := (bind_ok hc).2
      cases n with
      | int z =>
        simp only [checkIntGe] at this
        split_ifs at this with hz
        exact not_lt.1 hz
      | float v => cases this
    have e0 : extZpow (k.sem.compute x y) n.toInt = _ := extZpow_fin (.inr (by omega))
    have e1 : extZpow (k.sem.compute x y) (n.toInt - 1) = _ := extZpow_fin (.inr (by omega))
    have e2 : extZpow (k.sem.compute x y) (n.toInt - 2) = _ := extZpow_fin (by
      rcases hr.2 with h | h
      · exact .inr (by omega)
      · exact .inl h)
    refine ⟨?_, fun i => ?_, fun i => ?_, ?_⟩
    · simp only [KExpr.semX, powerX, h.compute, extPow, e0]; rfl
    · simp only [KExpr.semX, powerX, h.compute, h.gradX, extPow, e1, fin_mul_fin]; rfl
    · simp only [KExpr.semX, powerX, h.compute, h.gradY, extPow, e1, fin_mul_fin]; rfl
    · simp only [KExpr.semX, powerX, h.compute, h.gradX, h.gradY, h.div, extPow, e1, e2, fin_mul_fin, fin_add_fin, finsetSum_fin]; rfl
  | add a b iha ihb =>
    have ha := iha (bind_ok hc).1 hr.1
    have hb := ihb (bind_ok hc).2 hr.2
    exact ⟨by simp only [KExpr.semX, addX, ha.compute, hb.compute, fin_add_fin]; rfl, fun i => by simp only [KExpr.semX, addX, ha.gradX, hb.gradX, fin_add_fin]; rfl,
      fun i => by simp only [KExpr.semX, addX, ha.gradY, hb.gradY, fin_add_fin]; rfl, by simp only [KExpr.semX, addX, ha.div, hb.div, fin_add_fin]; rfl⟩
  | mul a b iha ihb =>
    have ha := iha (bind_ok hc).1 hr.1
    have hb := ihb (bind_ok hc).2 hr.2
    have e2 : extZpow (a.sem.compute x y) 2 = _ := extZpow_fin (.inr (by norm_num))
    by_cases hab : a = b
    · subst hab
      refine ⟨?_, fun i => ?_, fun i => ?_, ?_⟩ <;>
        simp only [KExpr.semX, KExpr.sem, mulX, mulSem, decide_true, if_true, ha.compute, ha.gradX, ha.gradY, ha.div, extPow, e2, fin_mul_fin, fin_add_fin, finsetSum_fin, vdot]
      norm_cast
    · refine ⟨?_, fun i => ?_, fun i => ?_, ?_⟩ <;>
        simp only [KExpr.semX, KExpr.sem, mulX, mulSem, hab, decide_false, Bool.false_eq_true, if_false, ha.compute, ha.gradX, ha.gradY, ha.div, hb.compute, hb.gradX, hb.gradY, hb.div, fin_mul_fin, fin_add_fin, finsetSum_fin, vdot]

end NotANumber

/-- At all other pairs of points the methods give numbers, those of the model of numbers (`C09`, `C10` say which these are). -/
theorem C98_regular (K : KExpr d) (hc : K.check = .ok ()) (x y : Vec d) (hr : RegularAt K x y) :
    K.semX.compute x y = fin (K.sem.compute x y) ∧ (∀ i, K.semX.gradX x y i = fin (K.sem.gradX x y i)) ∧
      (∀ i, K.semX.gradY x y i = fin (K.sem.gradY x y i)) ∧ K.semX.div x y = fin (K.sem.div x y) :=
  have h := FinAt.regular K hc x y hr
  ⟨h.compute, h.gradX, h.gradY, h.div⟩

example := C98_regular (.add (locallyPeriodic 1 2 3 4 5) (.mul (.matern 1 2 (.int 2)) (.linear 1 1)) : KExpr 2)
  (by norm_num [KExpr.check, locallyPeriodic, checkPos, checkNonneg, checkIntGe, bind, Except.bind])
  ![0, 0] ![1, 2] ⟨⟨⟨fun h => by simpa using congrFun h 0, by norm_num⟩, trivial⟩, fun h => by simpa using congrFun h 0, trivial⟩

end

end Coreax
