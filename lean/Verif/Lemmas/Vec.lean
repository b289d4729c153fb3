import Verif.Model.VecDists
import Verif.Lemmas.Discrete

/-! Sums of `FVal`s. -/

namespace Verif
open FVal

@[simp] theorem fsum_nil : fsum [] = fin 0 := rfl
@[simp] theorem fsum_cons (x : FVal) (xs : List FVal) : fsum (x :: xs) = x + fsum xs := rfl

theorem fsum_map_fin (xs : List ℝ) : fsum (xs.map fin) = fin xs.sum := by
  induction xs with
  | nil => rfl
  | cons x xs ih => simp [ih]

theorem fsum_ofFn_fin {n : ℕ} (f : Fin n → ℝ) : fsum (List.ofFn fun i => fin (f i)) = fin (∑ i, f i) := by
  rw [show (List.ofFn fun i => fin (f i)) = (List.ofFn f).map fin by rw [List.map_ofFn]; rfl, fsum_map_fin, List.sum_ofFn]

theorem fsum_map_log {xs : List ℝ} (h : ∀ x ∈ xs, 0 ≤ x) : fsum (xs.map fun x => log (fin x)) = log (fin xs.prod) := by
  induction xs with
  | nil => simp [log_fin_pos one_pos]
  | cons x xs ih =>
    rw [List.map_cons, fsum_cons, ih fun y hy => h y (List.mem_cons_of_mem _ hy), log_mul_nonneg (h x (by simp))
      (List.prod_nonneg fun y hy => h y (List.mem_cons_of_mem _ hy)), List.prod_cons]

theorem fsum_ofFn_log {n : ℕ} {f : Fin n → ℝ} (h : ∀ i, 0 ≤ f i) :
    fsum (List.ofFn fun i => log (fin (f i))) = log (fin (∏ i, f i)) := by
  rw [show (List.ofFn fun i => log (fin (f i))) = (List.ofFn f).map fun x => log (fin x) by rw [List.map_ofFn]; rfl,
    fsum_map_log, List.prod_ofFn]
  intro x hx
  obtain ⟨i, rfl⟩ := (List.mem_ofFn' _ _).1 hx
  exact h i

theorem zipWith_ofFn {α β γ : Type*} {n : ℕ} (f : α → β → γ) (a : Fin n → α) (b : Fin n → β) :
    List.zipWith f (List.ofFn a) (List.ofFn b) = List.ofFn fun i => f (a i) (b i) := by
  apply List.ext_getElem
  · simp
  · intro i h1 h2; simp

theorem forall_mem_ofFn {α : Type*} {n : ℕ} {a : Fin n → α} {P : α → Prop} : (∀ x ∈ List.ofFn a, P x) ↔ ∀ i, P (a i) := by
  simp [List.mem_ofFn']

theorem npIndex_nat {α : Type*} {xs : List α} {k : ℕ} (h : k < xs.length) : npIndex xs k = .ok xs[k] := by
  simp only [npIndex, show ¬ (k : ℤ) < 0 by omega, if_false, show (0 : ℤ) ≤ k by omega, if_true, Int.toNat_natCast,
    List.getElem?_eq_getElem h]

theorem npIndex_neg {α : Type*} {xs : List α} {k : ℤ} (h : k < 0) (h' : -xs.length ≤ k) :
    npIndex xs k = .ok (xs[(k + xs.length).toNat]'(by omega)) := by
  have h1 : (k + xs.length).toNat < xs.length := by omega
  simp only [npIndex, if_pos h, if_pos (show 0 ≤ k + xs.length by omega), List.getElem?_eq_getElem h1]

theorem npIndex_out {α : Type*} {xs : List α} {k : ℤ} (h : k < -xs.length ∨ xs.length ≤ k) :
    npIndex xs k = .error .indexError := by
  rcases h with h | h
  · simp [npIndex, show k < 0 by omega, show ¬ 0 ≤ k + xs.length by omega]
  · have : xs[k.toNat]? = none := by rw [List.getElem?_eq_none_iff]; omega
    simp [npIndex, show ¬ k < 0 by omega, show 0 ≤ k by omega, this]

end Verif
