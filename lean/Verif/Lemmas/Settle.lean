import Verif.Props.HerdingMMD
import Mathlib.Data.Fintype.Pigeonhole
import Mathlib.Data.Fintype.BigOperators
import Mathlib.Data.Fintype.Pi

/-!
# Repeated passes of coordinate-wise greedy exchange come to rest

A pass replaces the members of a coreset one after the other by the first best candidate, where the score of a candidate
at position `i` is `a i j - ∑ b j l` over the other members `l`.
-/

set_option linter.unusedSectionVars false

namespace Coreax.Settle

open Spec

variable {K : Type*} [Field K] [LinearOrder K] [IsStrictOrderedRing K] {n m : ℕ}

/-- The members after the first `i` replacements. -/
def hyb (c f : Fin m → Fin n) (i : ℕ) : Fin m → Fin n := fun t => if (t : ℕ) < i then f t else c t

/-- The quantity that all exchanges raise. -/
def pot (a : Fin m → Fin n → K) (b : Fin n → Fin n → K) (c : Fin m → Fin n) : K :=
  2 * ∑ t, a t (c t) - (∑ t, ∑ s, b (c t) (c s) - ∑ t, b (c t) (c t))

theorem sum_update (c : Fin m → Fin n) (i : Fin m) (j : Fin n) (F : Fin n → K) :
    ∑ t, F (Function.update c i j t) = F j + ∑ t ∈ Finset.univ.erase i, F (c t) := by
  rw [← Finset.add_sum_erase _ _ (Finset.mem_univ i), Function.update_self]
  congr 1
  refine Finset.sum_congr rfl (fun t ht => ?_)
  rw [Function.update_of_ne (Finset.mem_erase.1 ht).1]

theorem pot_update (a : Fin m → Fin n → K) (b : Fin n → Fin n → K) (hb : ∀ i j, b i j = b j i) (c : Fin m → Fin n)
    (i : Fin m) : ∃ C, ∀ j, pot a b (Function.update c i j)
      = C + 2 * (a i j - ∑ s ∈ Finset.univ.erase i, b j (c s)) := by
  refine ⟨2 * ∑ t ∈ Finset.univ.erase i, a t (c t)
    - ((∑ t ∈ Finset.univ.erase i, ∑ s ∈ Finset.univ.erase i, b (c t) (c s))
      - ∑ t ∈ Finset.univ.erase i, b (c t) (c t)), fun j => ?_⟩
  unfold pot
  have h1 : ∑ t, a t (Function.update c i j t) = a i j + ∑ t ∈ Finset.univ.erase i, a t (c t) := by
    rw [← Finset.add_sum_erase _ _ (Finset.mem_univ i), Function.update_self]
    congr 1
    refine Finset.sum_congr rfl (fun t ht => ?_)
    rw [Function.update_of_ne (Finset.mem_erase.1 ht).1]
  have h2 : ∀ l, ∑ s, b l (Function.update c i j s) = b l j + ∑ s ∈ Finset.univ.erase i, b l (c s) :=
    fun l => sum_update c i j (fun s => b l s)
  have h3 : ∑ t, b (Function.update c i j t) (Function.update c i j t)
      = b j j + ∑ t ∈ Finset.univ.erase i, b (c t) (c t) := sum_update c i j (fun l => b l l)
  simp only [h2]
  rw [sum_update c i j (fun l => b l j + ∑ s ∈ Finset.univ.erase i, b l (c s)), Finset.sum_add_distrib, h1, h3]
  have e : ∑ t ∈ Finset.univ.erase i, b (c t) j = ∑ t ∈ Finset.univ.erase i, b j (c t) :=
    Finset.sum_congr rfl (fun t _ => hb _ _)
  rw [e]
  ring

theorem hyb_zero (c f : Fin m → Fin n) : hyb c f 0 = c := by funext t; simp [hyb]

theorem hyb_full (c f : Fin m → Fin n) : hyb c f m = f := by funext t; simp [hyb, t.2]

theorem hyb_succ (c f : Fin m → Fin n) (i : Fin m) : hyb c f (i + 1) = Function.update (hyb c f i) i (f i) := by
  funext t
  by_cases ht : t = i
  · subst ht; simp [hyb]
  · rw [Function.update_of_ne ht]
    have h' : (t : ℕ) ≠ i := fun h => ht (Fin.ext h)
    have : ((t : ℕ) < i + 1) ↔ (t : ℕ) < i := by omega
    simp [hyb, this]

theorem hyb_self (c f : Fin m → Fin n) (i : Fin m) : hyb c f i = Function.update (hyb c f i) i (c i) := by
  funext t
  by_cases ht : t = i
  · subst ht; simp [hyb]
  · rw [Function.update_of_ne ht]

/-- `f` results from `c` by one pass. -/
def Pass (a : Fin m → Fin n → K) (b : Fin n → Fin n → K) (c f : Fin m → Fin n) : Prop :=
  ∀ i, ∃ A : Fin n → Prop, A (c i) ∧
    IsFirstMax A (fun j => a i j - ∑ s ∈ Finset.univ.erase i, b j (hyb c f i s)) (f i)

theorem pass_step {a : Fin m → Fin n → K} {b : Fin n → Fin n → K} (hb : ∀ i j, b i j = b j i) {c f : Fin m → Fin n}
    (h : Pass a b c f) (i : Fin m) : pot a b (hyb c f i) ≤ pot a b (hyb c f (i + 1)) ∧
      (pot a b (hyb c f i) = pot a b (hyb c f (i + 1)) → f i ≤ c i) := by
  obtain ⟨A, hA, -, h2, h3⟩ := h i
  obtain ⟨C, hC⟩ := pot_update a b hb (hyb c f i) i
  have e1 : pot a b (hyb c f i) = C + 2 * (a i (c i) - ∑ s ∈ Finset.univ.erase i, b (c i) (hyb c f i s)) := by
    rw [← hC, ← hyb_self]
  have e2 : pot a b (hyb c f (i + 1)) = C + 2 * (a i (f i) - ∑ s ∈ Finset.univ.erase i, b (f i) (hyb c f i s)) := by
    rw [← hC, ← hyb_succ]
  rw [e1, e2]
  have hle := h2 _ hA
  simp only at hle
  refine ⟨by linarith, fun heq => ?_⟩
  by_contra hlt
  have := h3 _ (not_le.1 hlt) hA
  simp only at this
  linarith

/-- A pass never lowers the potential, and if it does not raise it, no member moves to a later row. -/
theorem pass_le {a : Fin m → Fin n → K} {b : Fin n → Fin n → K} (hb : ∀ i j, b i j = b j i) {c f : Fin m → Fin n}
    (h : Pass a b c f) : pot a b c ≤ pot a b f ∧ (pot a b c = pot a b f → ∀ t, f t ≤ c t) := by
  have hmono : ∀ p q : ℕ, p ≤ q → q ≤ m → pot a b (hyb c f p) ≤ pot a b (hyb c f q) := by
    intro p q hpq
    induction q, hpq using Nat.le_induction with
    | base => intro _; exact le_rfl
    | succ q _ ih => intro hq; exact (ih (by omega)).trans (pass_step hb h ⟨q, by omega⟩).1
  have h0 := hyb_zero c f
  have h1 := hyb_full c f
  refine ⟨by have := hmono 0 m (Nat.zero_le _) le_rfl; rwa [h0, h1] at this, fun heq t => ?_⟩
  refine (pass_step hb h t).2 (le_antisymm (pass_step hb h t).1 ?_)
  have e1 := hmono (t + 1) m (by omega) le_rfl
  have e2 := hmono 0 t (Nat.zero_le _) (by omega)
  rw [h1] at e1
  rw [h0] at e2
  exact e1.trans (heq.symm.le.trans e2)

/-- A sequence of passes, each determined by its predecessor, comes to rest, within as many passes as there are tuples. -/
theorem settles {a : Fin m → Fin n → K} {b : Fin n → Fin n → K} (hb : ∀ i j, b i j = b j i) (g : ℕ → Fin m → Fin n)
    (hg : ∀ N, Pass a b (g N) (g (N + 1))) (hdet : ∀ M N, g M = g N → g (M + 1) = g (N + 1)) :
    ∃ N₀, N₀ < n ^ m ∧ ∀ N, N₀ ≤ N → g N = g N₀ := by
  have hpot : ∀ M N, M ≤ N → pot a b (g M) ≤ pot a b (g N) :=
    fun M N h => monotone_nat_of_le_succ (fun N => (pass_le hb (hg N)).1) h
  obtain ⟨p, q, hpq, hgpq⟩ := Fintype.exists_ne_map_eq_of_card_lt (fun p : Fin (n ^ m + 1) => g p) (by simp)
  wlog hlt : p < q generalizing p q
  · exact this q p hpq.symm hgpq.symm (lt_of_le_of_ne (not_lt.1 hlt) hpq.symm)
  have hlt' : (p : ℕ) < q := hlt
  have heq : ∀ N, (p : ℕ) ≤ N → N ≤ q → pot a b (g N) = pot a b (g p) := fun N h1 h2 =>
    le_antisymm ((hpot N q h2).trans (le_of_eq (by rw [← hgpq]))) (hpot p N h1)
  have hdown : ∀ N, (p : ℕ) ≤ N → N < q → g (N + 1) ≤ g N := fun N h1 h2 t =>
    (pass_le hb (hg N)).2 ((heq N h1 h2.le).trans (heq (N + 1) (by omega) h2).symm) t
  have hanti : ∀ N, (p : ℕ) + 1 ≤ N → N ≤ q → g N ≤ g (p + 1) := by
    intro N h1
    induction N, h1 using Nat.le_induction with
    | base => intro _; exact le_rfl
    | succ N h ih => intro h2; exact (hdown N (by omega) (by omega)).trans (ih (by omega))
  have hfix : g (p + 1) = g p := by
    refine le_antisymm (hdown p le_rfl hlt') ?_
    have := hanti q hlt' le_rfl
    rwa [← (show g p = g q from hgpq)] at this
  refine ⟨p, by have := q.2; omega, fun N hN => ?_⟩
  induction N, hN using Nat.le_induction with
  | base => rfl
  | succ N _ ih => rw [hdet N p ih, hfix]

/-- Where a pass changes nothing, no allowed exchange of one member raises the potential. -/
theorem fixed_local {a : Fin m → Fin n → K} {b : Fin n → Fin n → K} (hb : ∀ i j, b i j = b j i) (c : Fin m → Fin n)
    (i : Fin m) (j : Fin n)
    (h : a i j - ∑ s ∈ Finset.univ.erase i, b j (c s) ≤ a i (c i) - ∑ s ∈ Finset.univ.erase i, b (c i) (c s)) :
    pot a b (Function.update c i j) ≤ pot a b c := by
  obtain ⟨C, hC⟩ := pot_update a b hb c i
  have e : pot a b c = C + 2 * (a i (c i) - ∑ s ∈ Finset.univ.erase i, b (c i) (c s)) := by
    rw [← hC, Function.update_eq_self]
  rw [e, hC]
  linarith

theorem hyb_same (c : Fin m → Fin n) (i : ℕ) : hyb c c i = c := by funext t; simp [hyb]

/-- The sum over the other members, for a full coreset of positive uniform weight. -/
theorem otherSum_eq {X : Type*} (k : X → X → K) (x : Fin n → X) (c f : Fin m → Fin n) (u : K) (hu : 0 < u) (i : Fin m)
    (j : Fin n) : otherSum k x c (fun _ => u) f i j = ∑ s ∈ Finset.univ.erase i, k (x j) (x (hyb c f i s)) := by
  unfold otherSum
  rw [← Finset.sum_add_distrib, ← Finset.add_sum_erase _ _ (Finset.mem_univ i)]
  simp only [lt_irrefl, false_and, if_false, add_zero, zero_add]
  refine Finset.sum_congr rfl (fun t ht => ?_)
  have hti : (t : ℕ) ≠ i := fun hh => (Finset.mem_erase.1 ht).1 (Fin.ext hh)
  unfold hyb
  rcases lt_or_gt_of_ne hti with h1 | h1
  · have h2 : t < i := h1
    have h3 : ¬ (i : ℕ) < t := by omega
    simp [h2, h3]
  · have h2 : ¬ t < i := by rw [Fin.lt_def]; omega
    have h3 : (i : ℕ) < t := h1
    simp [h2, h3, hu]

theorem otherCount_eq (u : K) (hu : 0 < u) (i : Fin m) : otherCount (fun _ : Fin m => u) i + 1 = m := by
  unfold otherCount
  have : (Finset.univ.filter (fun t : Fin m => (i : ℕ) < t ∧ 0 < u)) = Finset.Ioi i := by
    ext t; simp [hu]
  rw [this, Fin.card_Ioi]
  omega

/-- The old member may be kept. -/
theorem allowed_old {w : Fin n → K} {unique : Bool} {c f : Fin m → Fin n} {u : K} (hu : 0 < u)
    (hcpos : ∀ t, 0 < w (c t)) (hinj : unique = true → Function.Injective c)
    (h : ∀ t, Spec.Allowed w unique c (fun _ => u) f t (f t)) (i : Fin m) :
    Spec.Allowed w unique c (fun _ => u) f i (c i) := by
  refine ⟨hcpos _, fun hun => ⟨fun t ht heq => ?_, fun t _ _ _ => ⟨i.2, rfl⟩⟩⟩
  obtain ⟨htm, hct⟩ := ((h t).2 hun).2 i ht hu heq.symm
  have := hinj hun (hct.trans heq)
  exact absurd this (by intro hh; rw [← hh] at ht; exact lt_irrefl _ ht)

end Coreax.Settle
