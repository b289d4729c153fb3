import Verif.Spec.ChainVec
import Verif.Props.ChainVec
import Verif.Props.Simplex

/-! # C49, C53: the simplex transform, and chains of transforms of vectors that may begin with it -/

namespace Verif
open FVal Set

/-- **C49**, simplex: from the open simplex onto all vectors with one entry less, for every length. -/
theorem C49_simplex (n : ℕ) : VInverts .simplex (openSimplex (n + 1)) (univ : Set (Fin n → ℝ)) :=
  ⟨fun x hx => by
      obtain ⟨y, h1, h2⟩ := C54_forward_then_backward x hx
      exact ⟨y, trivial, h1, h2⟩,
    fun y _ => C54_backward_then_forward y⟩

/-- **C49**, vectors: a transform that works entry by entry is invertible on vectors of every length if it is on numbers. -/
theorem C49_entrywise {t : VecTransform} {s : RVTransform} (h : Entrywise t s) {D R : Set ℝ} (hs : Inverts s D R) (n : ℕ) : VInverts t (allIn n D) (allIn n R) := by
  obtain ⟨f, b, j, hf, hb, hj, hf', hb', hj'⟩ := h
  constructor
  · intro x hx
    choose y hy h1 h2 using fun i => hs.fwd (x i) (hx i)
    refine ⟨y, hy, ?_, ?_⟩
    · rw [hf', vec, vec, List.map_ofFn]
      congr 1; funext i
      have := h1 i
      rw [hf] at this
      exact Except.ok.inj this
    · rw [hb', vec, vec, List.map_ofFn]
      congr 1; funext i
      have := h2 i
      rw [hb] at this
      exact Except.ok.inj this
  · intro y hy
    choose x hx h1 h2 using fun i => hs.bwd (y i) (hy i)
    refine ⟨x, hx, ?_, ?_⟩
    · rw [hb', vec, vec, List.map_ofFn]
      congr 1; funext i
      have := h1 i
      rw [hb] at this
      exact Except.ok.inj this
    · rw [hf', vec, vec, List.map_ofFn]
      congr 1; funext i
      have := h2 i
      rw [hf] at this
      exact Except.ok.inj this

example := C49_entrywise entrywise_log C49_log 3

/-- **C49**, scale with a scalar argument, on vectors of every length. -/
theorem C49_scale_vector {a : ℝ} (ha : a ≠ 0) (n : ℕ) : VInverts (.scaleScalar (fin a)) (univ : Set (Fin n → ℝ)) (univ : Set (Fin n → ℝ)) := by
  constructor
  · refine fun x _ => ⟨fun i => x i * a, trivial, ?_, ?_⟩ <;> simp [VecTransform.scaleScalar, vec, List.map_ofFn, Function.comp_def, div_fin _ ha, ha]
  · refine fun y _ => ⟨fun i => y i / a, trivial, ?_, ?_⟩ <;> simp [VecTransform.scaleScalar, vec, List.map_ofFn, Function.comp_def, div_fin _ ha, ha]

example := C49_scale_vector (show (-3 : ℝ) ≠ 0 by norm_num) 2

/-- **C49**, chains of transforms of vectors, of any length; the length of the vectors may change on the way. -/
theorem C49_vector_chained {ts : List VecTransform} {m n : ℕ} {D : Set (Fin m → ℝ)} {R : Set (Fin n → ℝ)} (h : VStages ts D R) : VInverts (.chained ts) D R := by
  induction h with
  | nil D => exact ⟨fun x hx => ⟨x, hx, rfl, rfl⟩, fun x hx => ⟨x, hx, rfl, rfl⟩⟩
  | @cons t ts m k n D M R ht _ ih =>
    have hf : ∀ v, (VecTransform.chained (t :: ts)).forward v = (VecTransform.chained ts).forward (t.forward v) := fun v => rfl
    have hb : ∀ v, (VecTransform.chained (t :: ts)).backward v = t.backward ((VecTransform.chained ts).backward v) := fun v => by
      simp [VecTransform.chained, VecTransform.chainedBackward]
    constructor
    · intro x hx
      obtain ⟨z, hz, h1, h2⟩ := ht.fwd x hx
      obtain ⟨y, hy, h3, h4⟩ := ih.fwd z hz
      exact ⟨y, hy, by rw [hf, h1, h3], by rw [hb, h4, h2]⟩
    · intro y hy
      obtain ⟨z, hz, h1, h2⟩ := ih.bwd y hy
      obtain ⟨x, hx, h3, h4⟩ := ht.bwd z hz
      exact ⟨x, hx, by rw [hb, h1, h3], by rw [hf, h4, h2]⟩

/-- Simplex, then `exp`. -/
example (n : ℕ) : VInverts (.chained [.simplex, .exp]) (openSimplex (n + 1)) (allIn n (Ioi 0)) := by
  refine C49_vector_chained (.cons (C49_simplex n) ?_)
  have h := C49_entrywise entrywise_exp C49_exp n
  rw [show allIn n univ = univ from eq_univ_of_forall fun x i => trivial] at h
  exact .cons h (.nil _)

/-- A sum that is a number has only numbers among its terms. -/
theorem foldl_fin : ∀ (l : List FVal) (a : FVal) {r : ℝ}, l.foldl (· + ·) a = fin r → ∃ a', a = fin a'
  | [], a, r, h => ⟨r, h⟩
  | x :: l, a, r, h => by
    obtain ⟨s, hs⟩ := foldl_fin l (a + x) h
    cases a <;> cases x <;> first | exact ⟨_, rfl⟩ | (cases hs)

theorem addDet_sum {n : ℕ} {y : Fin n → ℝ} : ∀ (fs : List (FVal → FVal)) (A : ℝ) (a r : Fin n → ℝ), (∀ k, (fs.map fun f => f (fin (y k))).foldl (· + ·) (fin (a k)) = fin (r k)) →
    (fs.map fun f => Tens.vc ((vec y).map f)).foldl (VecTransform.addDet 0) (.sc (fin A)) = .sc (fin (A + ∑ k, (r k - a k)))
  | [], A, a, r, h => by
    have : ∀ k, a k = r k := fun k => by simpa using h k
    simp [this]
  | f :: fs, A, a, r, h => by
    have hg : ∀ k, ∃ g, f (fin (y k)) = fin g := fun k => by
      obtain ⟨s, hs⟩ := foldl_fin (fs.map fun f => f (fin (y k))) (fin (a k) + f (fin (y k))) (h k)
      revert hs
      cases f (fin (y k)) <;> intro hs <;> first | exact ⟨_, rfl⟩ | (cases hs)
    choose g hg using hg
    have e : (vec y).map f = vec g := by
      rw [vec, vec, List.map_ofFn]
      congr 1; funext k; exact hg k
    rw [List.map_cons, List.foldl_cons, e]
    have e2 : VecTransform.addDet 0 (.sc (fin A)) (.vc (vec g)) = .sc (fin (A + ∑ k, g k)) := by
      simp [VecTransform.addDet, Tens.ndim, Tens.add, Tens.sumLast, fsum_vec]
    rw [e2, addDet_sum fs _ (fun k => a k + g k) r fun k => by have := h k; simpa [hg] using this]
    congr 2
    rw [add_assoc, ← Finset.sum_add_distrib]
    congr 1
    refine Finset.sum_congr rfl fun k _ => ?_
    ring

theorem smooth_open {ss : List RVTransform} {D R : Set ℝ} (hs : SmoothStages ss D R) : IsOpen R := by
  induction hs with
  | nil h => exact h
  | cons _ _ _ _ ih => exact ih

theorem smooth_stages {ss : List RVTransform} {D R : Set ℝ} (hs : SmoothStages ss D R) : Stages ss D R := by
  induction hs with
  | nil _ => exact .nil _
  | cons hi _ _ _ ih => exact .cons hi ih

/-- **C53**, simplex: a chain that begins with the simplex transform and goes on with transforms that work entry by entry (with correct Jacobian terms
on open ranges) has one Jacobian term, the log absolute determinant of the derivative of the whole `backward` map, for every length of vectors and of chains. -/
theorem C53_simplex_chain {ts : List VecTransform} {ss : List RVTransform} (h : List.Forall₂ Entrywise ts ss) {R : Set ℝ} (hs : SmoothStages ss univ R) (n : ℕ) :
    VLogJac (.chained (.simplex :: ts)) (allIn n R) := by
  intro y hy
  have hjac := C53_chain_jacobian hs
  obtain ⟨fs, b, h1, h2⟩ := chainLoop (List.forall₂_reverse_iff.mpr h)
  have hsum : ∀ x, (RVTransform.chained ss).logJacDet x = .ok ((fs.map fun f => f x).foldl (· + ·) 0) := fun x => by
    simp only [RVTransform.chained, h2, bind, Except.bind]; rfl
  have hback : ∀ x, (RVTransform.chained ss).backward x = .ok (b x) := fun x => detLoop_snd _ _ _ _ (h2 x)
  have hbv : ∀ v, VecTransform.chainedBackward ts v = v.map b := fun v => by
    have := C53_vector_backward h v
    rw [show v.map (RVTransform.chained ss).backward = (v.map b).map Except.ok by rw [List.map_map]; exact List.map_congr_left fun x _ => hback x] at this
    exact List.map_injective_iff.2 (fun a b h => Except.ok.inj h) this
  choose d hd hd0 hj using fun k => hjac (y k) (hy k)
  have hopen : IsOpen R := smooth_open hs
  have hinv : ∀ z ∈ R, ∃ u, b (fin z) = fin u := by
    intro z hz
    obtain ⟨u, _, hu, _⟩ := (C49_chained (smooth_stages hs)).bwd z hz
    rw [hback] at hu
    exact ⟨u, Except.ok.inj hu⟩
  have hbr : ∀ z ∈ R, b (fin z) = fin (realOf ((RVTransform.chained ss).backward (fin z))) := fun z hz => by
    obtain ⟨u, hu⟩ := hinv z hz
    rw [hback, hu]; rfl
  set c : ℝ → ℝ := fun z => realOf ((RVTransform.chained ss).backward (fin z)) with hc
  have hvec : ∀ z ∈ allIn n R, (vec z).map b = vec fun i => c (z i) := fun z hz => by
    rw [vec, vec, List.map_ofFn]
    congr 1; funext i; exact hbr _ (hz i)
  obtain ⟨L, hL, hL0, hLj⟩ := C54_log_jac_det fun i => c (y i)
  have hD : HasFDerivAt (fun z : Fin n → ℝ => fun i => c (z i)) (ContinuousLinearMap.pi fun i => d i • ContinuousLinearMap.proj (R := ℝ) (φ := fun _ => ℝ) i) y := by
    rw [hasFDerivAt_pi]
    intro i
    have := (hd i).hasFDerivAt.comp y (ContinuousLinearMap.proj (R := ℝ) (φ := fun _ : Fin n => ℝ) i).hasFDerivAt
    rwa [show d i • ContinuousLinearMap.proj (R := ℝ) (φ := fun _ : Fin n => ℝ) i = (ContinuousLinearMap.toSpanSingleton ℝ (d i)).comp (ContinuousLinearMap.proj i) from
      ContinuousLinearMap.ext fun v => by simp [mul_comm]]
  have hdet : (ContinuousLinearMap.pi fun i => d i • ContinuousLinearMap.proj (R := ℝ) (φ := fun _ : Fin n => ℝ) i).det = ∏ i, d i := by
    rw [ContinuousLinearMap.det, show ((ContinuousLinearMap.pi fun i => d i • ContinuousLinearMap.proj (R := ℝ) (φ := fun _ : Fin n => ℝ) i : (Fin n → ℝ) →L[ℝ] Fin n → ℝ) : (Fin n → ℝ) →ₗ[ℝ] Fin n → ℝ) =
      Matrix.toLin' (Matrix.diagonal d) from ?_, LinearMap.det_toLin', Matrix.det_diagonal]
    ext v i
    simp [Matrix.mulVec_diagonal]
  have hopen' : IsOpen (allIn n R) := by
    have : allIn n R = ⋂ i, (fun x : Fin n → ℝ => x i) ⁻¹' R := by ext x; simp [allIn]
    rw [this]
    exact isOpen_iInter_of_finite fun i => hopen.preimage (continuous_apply i)
  have hdd : (L.comp (ContinuousLinearMap.pi fun i => d i • ContinuousLinearMap.proj (R := ℝ) (φ := fun _ => ℝ) i)).det = L.det * ∏ i, d i := by
    rw [← hdet]
    exact LinearMap.det_comp (L : (Fin n → ℝ) →ₗ[ℝ] Fin n → ℝ) _
  refine ⟨L.comp (ContinuousLinearMap.pi fun i => d i • ContinuousLinearMap.proj (R := ℝ) (φ := fun _ => ℝ) i), ?_, ?_, ?_⟩
  · refine (hL.comp y hD).congr_of_eventuallyEq (Filter.eventually_of_mem (hopen'.mem_nhds hy) fun z hz => ?_)
    show coords n ((VecTransform.chained (.simplex :: ts)).backward (vec z)) = coords n (simplexBackward (vec fun i => c (z i)))
    rw [← hvec z hz, ← hbv]
    simp [VecTransform.chained, VecTransform.chainedBackward, VecTransform.simplex]
  · rw [hdd]
    exact mul_ne_zero hL0 (Finset.prod_ne_zero_iff.2 fun i _ => hd0 i)
  · rw [hdd, abs_mul, Real.log_mul (abs_ne_zero.2 hL0) (abs_ne_zero.2 (Finset.prod_ne_zero_iff.2 fun i _ => hd0 i)), Finset.abs_prod, Real.log_prod fun i _ => abs_ne_zero.2 (hd0 i)]
    show VecTransform.chainedLogJacDet (.simplex :: ts) (vec y) = _
    have hr : (VecTransform.simplex :: ts).reverse.foldl VecTransform.detStep ([], 1, vec y) =
        ((fs.map fun f => .vc ((vec y).map f)) ++ [.sc (simplexLogJacDet (vec fun i => c (y i)))], 0, simplexBackward (vec fun i => c (y i))) := by
      rw [List.reverse_cons, List.foldl_append, h1 [] (vec y), hvec y hy]
      simp [VecTransform.detStep, VecTransform.simplex, Tens.ndim]
    simp only [VecTransform.chainedLogJacDet, hr, List.foldl_append]
    have e := addDet_sum (y := y) fs 0 (fun _ => 0) (fun k => Real.log |d k|) fun k => by
      have := hj k
      rw [hsum] at this
      exact Except.ok.inj this
    rw [show (0 : FVal) = fin 0 from rfl, e, hLj]
    simp [VecTransform.addDet, Tens.ndim, Tens.add, add_comm]

/-- Simplex, then `exp`, on vectors of every length. -/
example (n : ℕ) := C53_simplex_chain (.cons entrywise_exp .nil) (.cons C49_exp isOpen_Ioi C50_exp (.nil isOpen_Ioi)) n

end Verif
