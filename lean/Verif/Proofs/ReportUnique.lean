import Verif.Proofs.Prio3Inst

/-!
# Auxiliary results for C93
-/

namespace Vdaf

section
variable {F : Type} [NttField F] {Meas Agg : Type} {prims : Prims} {fuel : ℕ}

theorem getD_of_lt' {α : Type} {l : List α} {d : α} {j : ℕ} (h : j < l.length) : l.getD j d = l[j] := by
  simp [List.getD_eq_getElem?_getD, h]

theorem Spec.IsSum.unique {N : ℕ} {vs vs' : Fin N → List F} {v v' : List F} (hN : 0 < N)
    (h : Spec.IsSum vs v) (h' : Spec.IsSum vs' v') (he : ∀ i, vs i = vs' i) : v = v' := by
  have hl : v.length = v'.length := by rw [← h.1 ⟨0, hN⟩, ← h'.1 ⟨0, hN⟩, he]
  apply List.ext_getElem hl
  intro j hj hj'
  have h1 := h.2 j
  rw [show (∑ i, (vs i).getD j 0) = ∑ i, (vs' i).getD j 0 from Finset.sum_congr rfl (fun i _ => by rw [he]), ← h'.2 j] at h1
  simpa [List.getD_eq_getElem?_getD, hj, hj'] using h1

theorem Spec.Expands.unique {P : Prio3 (XofTurboShake128 prims fuel) F Meas Agg} {ctx : Bytes} {j : ℕ}
    {s : Prio3InputShare F} {ms ms' ps ps' : List F} {bl bl' : Option Bytes}
    (h : Spec.Expands P ctx j s ms ps bl) (h' : Spec.Expands P ctx j s ms' ps' bl') : ms = ms' := by
  rcases h with ⟨h0, rfl⟩ | ⟨h0, seed, rfl, h1, -⟩
  · rcases h' with ⟨-, h'⟩ | ⟨h', -⟩
    · injection h'
    · omega
  · rcases h' with ⟨h', -⟩ | ⟨-, seed', h', h2, -⟩
    · omega
    · injection h' with h' _
      subst h'
      rw [h1] at h2
      injection h2

/-- The aggregate of one measurement does not overflow. -/
theorem Library.totals_single {V : Valid F Meas Agg} {fn : Spec.Fun Meas Agg} (hV : Spec.Library F V fn) {m : Meas}
    (hm : fn.valid m) : ∀ n ∈ fn.totals (fn.agg [m]), n < PyField.modulus F := by
  have h2 : 1 < PyField.modulus F := one_lt_modulus F
  cases hV with
  | count =>
    rcases hm with rfl | rfl <;> simp [Spec.countFun] <;> omega
  | sum _ h =>
    obtain ⟨_, h, -⟩ := Except.bind_eq_ok.1 h
    have h := of_decide_eq_false (raiseIf_eq_ok.1 h)
    simp only [Spec.sumFun] at hm ⊢
    have := Nat.lt_size_self (n := ‹ℕ›)
    simp
    omega
  | @sumVec length max cl _ h =>
    obtain ⟨_, -, h⟩ := Except.bind_eq_ok.1 h
    obtain ⟨_, -, h⟩ := Except.bind_eq_ok.1 h
    obtain ⟨_, -, h⟩ := Except.bind_eq_ok.1 h
    obtain ⟨_, h, -⟩ := Except.bind_eq_ok.1 h
    have h := of_decide_eq_false (raiseIf_eq_ok.1 h)
    have hs := Nat.lt_size_self (n := max)
    obtain ⟨hl, hx⟩ := hm
    intro n hn
    simp only [Spec.sumVecFun, List.map_cons, List.map_nil, List.sum_cons, List.sum_nil, add_zero, List.mem_map,
      List.mem_range] at hn
    obtain ⟨j, hj, rfl⟩ := hn
    have := hx (m.getD j 0) (by rw [getD_of_lt' (by omega)]; exact List.getElem_mem _)
    omega
  | histogram _ _ =>
    intro n hn
    simp only [Spec.histogramFun, List.mem_map] at hn
    obtain ⟨j, -, rfl⟩ := hn
    exact lt_of_le_of_lt List.countP_le_length (by simpa using h2)
  | multihot _ =>
    intro n hn
    simp only [Spec.multihotFun, List.mem_map] at hn
    obtain ⟨j, -, rfl⟩ := hn
    exact lt_of_le_of_lt List.countP_le_length (by simpa using h2)

/-- The aggregate of one measurement determines it. -/
theorem Library.agg_single {V : Valid F Meas Agg} {fn : Spec.Fun Meas Agg} (hV : Spec.Library F V fn) {m m' : Meas}
    (hm : fn.valid m) (hm' : fn.valid m') (h : fn.agg [m] = fn.agg [m']) : m = m' := by
  cases hV with
  | count =>
    rcases hm with rfl | rfl <;> rcases hm' with rfl | rfl <;> simp_all [Spec.countFun]
  | sum _ _ =>
    simp only [Spec.sumFun, List.map_cons, List.map_nil, List.sum_cons, List.sum_nil, add_zero] at h hm hm'
    omega
  | @sumVec length _ _ _ _ =>
    obtain ⟨hl, hx⟩ := hm
    obtain ⟨hl', hx'⟩ := hm'
    apply List.ext_getElem (by omega)
    intro j hj hj'
    have := congrArg (·[j]?) h
    simp only [Spec.sumVecFun, List.map_cons, List.map_nil, List.sum_cons, List.sum_nil, add_zero, List.getElem?_map,
      List.getElem?_range (show j < length by omega), Option.map_some, Option.some.injEq, getD_of_lt' hj,
      getD_of_lt' hj'] at this
    have h1 := hx _ (List.getElem_mem hj)
    have h2 := hx' _ (List.getElem_mem hj')
    omega
  | @histogram length _ _ _ _ =>
    obtain ⟨h0, hl⟩ := hm
    have := congrArg (·[m.toNat]?) h
    simp only [Spec.histogramFun, List.getElem?_map, List.getElem?_range (show m.toNat < length by omega), Option.map_some,
      Option.some.injEq, List.countP_singleton, Int.toNat_of_nonneg h0, decide_true, if_true] at this
    by_contra hne
    simp [Ne.symm hne] at this
  | @multihot length _ _ _ _ =>
    obtain ⟨hl, -⟩ := hm
    obtain ⟨hl', -⟩ := hm'
    apply List.ext_getElem (by omega)
    intro j hj hj'
    have := congrArg (·[j]?) h
    simp only [Spec.multihotFun, List.getElem?_map,
      List.getElem?_range (show j < length by omega), Option.map_some, Option.some.injEq, List.countP_singleton, getD_of_lt' hj,
      getD_of_lt' hj'] at this
    cases h1 : m[j] <;> cases h2 : m'[j] <;> simp_all

end
end Vdaf
