import Verif.Model.ChainVec
import Verif.Props.Transforms
import Verif.Lemmas.Vec
import Verif.Lemmas.FVal

/-! # C53 on vectors -/

namespace Verif
open FVal

/-- The transform acts entry by entry, and gives one Jacobian term per entry: `t` on vectors is `s` on each entry. -/
def Entrywise (t : VecTransform) (s : RVTransform) : Prop :=
  ∃ f b j : FVal → FVal, (∀ x, s.forward x = .ok (f x)) ∧ (∀ x, s.backward x = .ok (b x)) ∧ (∀ x, s.logJacDet x = .ok (j x)) ∧
    (∀ v, t.forward v = v.map f) ∧ (∀ v, t.backward v = v.map b) ∧ ∀ v, t.logJacDet v = .vc (v.map j)

theorem entrywise_loc (a : FVal) : Entrywise (.loc a) (.loc a) :=
  ⟨(· + a), (· - a), fun _ => 0, fun _ => rfl, fun _ => rfl, fun _ => rfl, fun _ => rfl, fun _ => rfl, fun _ => rfl⟩
theorem entrywise_log : Entrywise .log .log :=
  ⟨FVal.log, FVal.exp, id, fun _ => rfl, fun _ => rfl, fun _ => rfl, fun _ => rfl, fun _ => rfl, fun v => by simp [VecTransform.log]⟩
theorem entrywise_exp : Entrywise .exp .exp :=
  ⟨FVal.exp, FVal.log, fun x => -FVal.log x, fun _ => rfl, fun _ => rfl, fun _ => rfl, fun _ => rfl, fun _ => rfl, fun _ => rfl⟩

/-- A list of vectors of determinants whose `k`-th entries are the terms of one scalar chain. -/
theorem chainLoop {ts : List VecTransform} {ss : List RVTransform} (h : List.Forall₂ Entrywise ts ss) :
    ∃ fs : List (FVal → FVal), ∃ b : FVal → FVal,
      (∀ (D : List Tens) (v : List FVal),
        ts.foldl VecTransform.detStep (D, 1, v) = (D ++ fs.map fun f => .vc (v.map f), 1, v.map b)) ∧
      ∀ x : FVal, ss.foldlM RVTransform.detStep ([], x) = .ok (fs.map fun f => f x, b x) := by
  induction h with
  | nil => exact ⟨[], id, fun D v => by simp, fun x => rfl⟩
  | @cons t s ts ss hts _ ih =>
    obtain ⟨fs, b, h1, h2⟩ := ih
    obtain ⟨_, b', j, _, hb, hj, _, hb', hj'⟩ := hts
    refine ⟨j :: fs.map (· ∘ b'), b ∘ b', fun D v => ?_, fun x => ?_⟩
    · rw [List.foldl_cons]
      have : VecTransform.detStep (D, 1, v) t = (D ++ [.vc (v.map j)], 1, v.map b') := by
        simp [VecTransform.detStep, hj', hb', Tens.ndim]
      rw [this, h1]
      simp [Function.comp_def]
    · rw [List.foldlM_cons]
      simp only [RVTransform.detStep, hj, hb, bind, Except.bind, pure, Except.pure]
      rw [detStep_acc, h2]
      simp [Except.map, Function.comp_def]

/-- **C53**, vectors: when every transform of the chain works entry by entry and returns one Jacobian term per entry, the chain's
`log_jac_det` of a vector is the vector of the scalar chain's `log_jac_det` (so `C53_chain_jacobian` applies to each entry). -/
theorem C53_vector_chain_partial {ts : List VecTransform} {ss : List RVTransform} (h : List.Forall₂ Entrywise ts ss) (hne : ts ≠ [])
    (v : List FVal) :
    ∃ dets : List FVal, VecTransform.chainedLogJacDet ts v = .vc dets ∧
      dets.map Except.ok = v.map (RVTransform.chained ss).logJacDet := by
  have hr : List.Forall₂ Entrywise ts.reverse ss.reverse := List.forall₂_reverse_iff.mpr h
  obtain ⟨fs, b, h1, h2⟩ := chainLoop hr
  have hfs : fs ≠ [] := by
    rintro rfl
    have := h2 0
    have hlen : ∀ (l : List RVTransform) (D : List FVal) (x : FVal) r, l.foldlM RVTransform.detStep (D, x) = .ok r → r.1.length = D.length + l.length := by
      intro l
      induction l with
      | nil => intro D x r h; cases h; rfl
      | cons t l ih =>
        intro D x r h
        simp only [List.foldlM_cons, RVTransform.detStep] at h
        cases e1 : t.logJacDet x with
        | error e => rw [e1] at h; cases h
        | ok d =>
          cases e2 : t.backward x with
          | error e => rw [e1, e2] at h; cases h
          | ok w =>
            rw [e1, e2] at h
            have := ih (D ++ [d]) w r h
            simp at this ⊢
            omega
    have := hlen _ _ _ _ this
    simp at this
    exact hne (List.length_eq_zero_iff.mp (h.length_eq.trans (by simp [this])))
  have hfold : ∀ (fs : List (FVal → FVal)) (g : FVal → FVal),
      (fs.map fun f => Tens.vc (v.map f)).foldl (VecTransform.addDet 1) (.vc (v.map g)) =
        .vc (v.map fun x => (fs.map fun f => f x).foldl (· + ·) (g x)) := by
    intro fs
    induction fs with
    | nil => intro g; simp
    | cons f fs ih =>
      intro g
      simp only [List.map_cons, List.foldl_cons]
      have e1 : VecTransform.addDet 1 (.vc (v.map g)) (.vc (v.map f)) = .vc (v.map fun x => g x + f x) := by
        simp [VecTransform.addDet, Tens.ndim, Tens.add, List.zipWith_map, List.zipWith_self]
      rw [e1, ih]
  cases fs with
  | nil => exact absurd rfl hfs
  | cons f fs =>
    refine ⟨v.map fun x => (fs.map fun f => f x).foldl (· + ·) (0 + f x), ?_, ?_⟩
    · simp only [VecTransform.chainedLogJacDet]
      rw [h1 [] v]
      simp only [List.nil_append, List.map_cons, List.foldl_cons]
      have e1 : VecTransform.addDet 1 (.sc 0) (.vc (v.map f)) = .vc (v.map fun x => 0 + f x) := by
        simp [VecTransform.addDet, Tens.ndim, Tens.add]
      rw [e1, hfold]
    · rw [List.map_map]
      refine List.map_congr_left fun x _ => ?_
      simp only [RVTransform.chained, h2, bind, Except.bind, Function.comp, List.map_cons, List.foldl_cons]
      rfl

example := C53_vector_chain_partial (.cons entrywise_log (.cons (entrywise_loc (.fin 2)) (.cons entrywise_exp .nil))) (by simp) [.fin 1, .fin 2]

/-- **C53**, vectors, `backward`: it is the scalar chain's `backward` of each entry. -/
theorem C53_vector_backward {ts : List VecTransform} {ss : List RVTransform} (h : List.Forall₂ Entrywise ts ss) (v : List FVal) :
    (VecTransform.chainedBackward ts v).map Except.ok = v.map (RVTransform.chained ss).backward := by
  have hr : List.Forall₂ Entrywise ts.reverse ss.reverse := List.forall₂_reverse_iff.mpr h
  simp only [VecTransform.chainedBackward, RVTransform.chained]
  generalize ts.reverse = ts' at hr
  generalize ss.reverse = ss' at hr
  induction hr generalizing v with
  | nil => exact List.map_congr_left fun x _ => rfl
  | @cons t s ts ss hts _ ih =>
    obtain ⟨_, b, j, _, hb, _, _, hb', _⟩ := hts
    rw [List.foldl_cons, hb', ih, List.map_map]
    refine List.map_congr_left fun x _ => ?_
    rw [List.foldlM_cons, hb]
    rfl

example := C53_vector_backward (.cons entrywise_log (.cons (entrywise_loc (.fin 2)) (.cons entrywise_exp .nil))) [.fin 1, .fin 2]

/-- **C53** fails for vectors when a transform with a scalar argument is chained with an entrywise one: for the chain `[log, scale 2]`
and the vector `(1, 1)` the chain's `log_jac_det` is the single number `1 - log 2`, which is neither the log-determinant of the
Jacobian of `backward` (the sum `1 - 2 log 2` of the entries' terms) nor any entry's term (`1/2 - log 2`). -/
theorem C53_vector_chain_wrong :
    VecTransform.chainedLogJacDet [.log, .scaleScalar (.fin 2)] [.fin 1, .fin 1] = .sc (.fin (1 - Real.log 2)) ∧
    (RVTransform.chained [.log, .scale (.fin 2)]).logJacDet (.fin 1) = .ok (.fin (1 / 2 - Real.log 2)) ∧
    (1 - Real.log 2 : ℝ) ≠ (1 / 2 - Real.log 2) + (1 / 2 - Real.log 2) ∧ (1 - Real.log 2 : ℝ) ≠ 1 / 2 - Real.log 2 := by
  have h2 : FVal.log (fin 2) = fin (Real.log 2) := log_fin_pos (by norm_num)
  have hd : (fin 1 / fin 2 : FVal) = fin (1 / 2) := div_fin _ (by norm_num)
  refine ⟨?_, ?_, ?_, ?_⟩
  · simp [VecTransform.chainedLogJacDet, VecTransform.detStep, VecTransform.addDet, VecTransform.log, VecTransform.scaleScalar, Tens.ndim, Tens.add,
      Tens.sumLast, h2, hd]
    norm_num
    ring
  · simp [RVTransform.chained, RVTransform.detStep, RVTransform.log, RVTransform.scale, h2, hd, bind, Except.bind, pure, Except.pure]
    ring
  · have := Real.log_pos (show (1 : ℝ) < 2 by norm_num)
    intro h; linarith
  · norm_num

end Verif
