import Verif.Model.Shamir
import Verif.Proofs.Mono
import Verif.Proofs.Field
import Verif.Proofs.Prog
import Verif.Proofs.Hoare
import Mathlib.LinearAlgebra.Lagrange

namespace Vdaf.Shamir
open Finset Polynomial
variable {F : Type} [PyField F]

/-- the point of share `j` -/
def pt (F : Type) [PyField F] (j : ℕ) : F := ((j + 1 : ℕ) : F)

/-- The polynomial of coordinate `i` -/
noncomputable def cpoly (m : F) (t : ℕ) (r : ℕ → F) : F[X] := C m + ∑ k ∈ range (t - 1), C (r k) * X ^ (k + 1)

theorem ofInt_pt {j : ℕ} (h : j + 1 < PyField.modulus F) : ofInt F ((j : ℤ) + 1) = .ok (pt F j) := by
  unfold ofInt pt
  rw [if_pos (by omega), if_pos (by omega)]
  simp

theorem pt_inj {i j : ℕ} (hi : i + 1 < PyField.modulus F) (hj : j + 1 < PyField.modulus F) (h : pt F i = pt F j) :
    i = j := by
  have := congrArg PyField.toNat h
  rw [pt, pt, PyField.toNat_natCast _ hi, PyField.toNat_natCast _ hj] at this
  omega

theorem pt_ne_zero {j : ℕ} (h : j + 1 < PyField.modulus F) : pt F j ≠ 0 := by
  intro h0
  have := congrArg PyField.toNat h0
  have hz : PyField.toNat (0 : F) = 0 := by
    have := PyField.toNat_natCast (F := F) 0 (by omega)
    simpa using this
  rw [pt, PyField.toNat_natCast _ h, hz] at this
  omega

theorem shamirPoint_eq {j : ℕ} (h : j + 1 < PyField.modulus F) (m : F) (t : ℕ) (r : ℕ → F) :
    shamirPoint ([m] ++ (List.range (t - 1)).map r) j = .ok ((cpoly m t r).eval (pt F j)) := by
  have key : ∀ (l : List F) (o : ℕ) (a : F), forFold (l.zipIdx o) a (fun f (x : F × ℕ) =>
      (Except.ok (f + x.1 * pt F j ^ x.2) : Res F)) = .ok (a + ∑ k ∈ range l.length, coef l k * pt F j ^ (o + k)) := by
    intro l
    induction l with
    | nil => intro o a; simp
    | cons c l ih =>
      intro o a
      rw [List.zipIdx_cons, forFold_cons]
      simp only [Except.ok_bind']
      rw [ih]
      congr 1
      rw [List.length_cons, Finset.sum_range_succ']
      have : ∀ k, coef (c :: l) (k + 1) = coef l k := fun k => by simp [coef]
      simp only [this]
      have h0 : coef (c :: l) 0 = c := by simp [coef]
      rw [h0]
      have e : ∀ k, o + 1 + k = o + (k + 1) := fun k => by omega
      simp only [e, Nat.add_zero]
      ring
  have := key ([m] ++ (List.range (t - 1)).map r) 0 0
  unfold shamirPoint
  simp only [ofInt_pt h, Except.ok_bind', Except.pure_eq']
  rw [this]
  congr 1
  rw [show ([m] ++ (List.range (t - 1)).map r).length = (t - 1) + 1 by simp, Finset.sum_range_succ', cpoly]
  have h0 : coef ([m] ++ (List.range (t - 1)).map r) 0 = m := by simp [coef]
  rw [h0]
  simp only [eval_add, eval_C, eval_finsetSum, eval_mul, eval_pow, eval_X, zero_add, pow_zero, mul_one]
  rw [add_comm]
  congr 1
  apply Finset.sum_congr rfl
  intro k hk
  congr 1
  have := coef_tab (t - 1) r k
  rw [if_pos (by simpa using hk)] at this
  rw [← this]
  simp [coef, tab]

theorem shard_eq (meas : List F) (t num : ℕ) (rand : ℕ → ℕ → F) (hnum : num < PyField.modulus F) :
    shamirShard meas t num rand = .ok (tab num fun j => tab meas.length fun i =>
      (cpoly (coef meas i) t (rand i)).eval (pt F j)) := by
  unfold shamirShard
  simp only
  set n := meas.length with hn
  set v : ℕ → ℕ → F := fun j i => (cpoly (coef meas i) t (rand i)).eval (pt F j) with hv
  obtain ⟨b, hb, hP⟩ := forFold_range n ((List.range num).map fun _ => fieldZeros F n)
    (fun ms i => do
      let m ← getI meas i
      let coeffs := [m] ++ (List.range (t - 1)).map (rand i)
      forFold (List.range num) ms fun ms j => do
        let f ← shamirPoint coeffs j
        let share ← getI ms j
        let share ← setI share i f
        setI ms j share)
    (fun i ms => ms = tab num fun j => tab n fun i' => if i' < i then v j i' else 0)
    (by
      show tab num _ = tab num _
      apply tab_congr
      intro j _
      rw [fieldZeros]
      apply List.ext_getElem
      · simp
      · intro i h1 h2; rw [tab_getElem]; simp)
    (by
      rintro i hi _ rfl
      rw [getI_of_lt hi]
      simp only [Except.ok_bind']
      obtain ⟨b, hb, hP⟩ := forFold_range num (tab num fun j => tab n fun i' => if i' < i then v j i' else 0)
        (fun ms j => do
          let f ← shamirPoint ([meas[i]] ++ (List.range (t - 1)).map (rand i)) j
          let share ← getI ms j
          let share ← setI share i f
          setI ms j share)
        (fun j ms => ms = tab num fun j' => tab n fun i' => if i' < (if j' < j then i + 1 else i) then v j' i' else 0)
        (by simp)
        (by
          rintro j hj _ rfl
          rw [shamirPoint_eq (by omega), getI_tab hj]
          simp only [Except.ok_bind', lt_irrefl, if_false]
          rw [setI_tab hi]
          simp only [Except.ok_bind']
          rw [setI_tab hj]
          refine ⟨_, rfl, ?_⟩
          apply tab_congr
          intro j' hj'
          by_cases h : j' = j
          · subst h
            simp only [Function.update_self, Nat.lt_succ_self, if_true]
            apply tab_congr
            intro i' _
            rw [Function.update_apply]
            by_cases hi' : i' = i
            · subst hi'
              simp [hv, coef_of_lt hi]
            · have : (i' < i + 1) = (i' < i) := by simp; omega
              simp [hi', this]
          · rw [Function.update_of_ne h]
            have : (j' < j + 1) = (j' < j) := by simp; omega
            simp only [this])
      refine ⟨b, hb, ?_⟩
      rw [hP]
      apply tab_congr
      intro j hj
      simp [hj])
  rw [hb, hP]
  congr 1
  apply tab_congr
  intro j _
  apply tab_congr
  intro i hi
  simp [hi, hv]

/-- the weights of reconstruction -/
noncomputable def lam (idx : List ℕ) (k : ℕ) : F :=
  (Lagrange.basis (range idx.length) (fun k => pt F (idx.getD k 0)) k).eval 0

theorem pts_injOn {idx : List ℕ} (hnd : idx.Nodup) (hlt : ∀ j ∈ idx, j + 1 < PyField.modulus F) :
    Set.InjOn (fun k => pt F (idx.getD k 0)) (range idx.length : Finset ℕ) := by
  intro a ha b hb hab
  simp only [coe_range, Set.mem_Iio] at ha hb
  simp only [List.getD_eq_getElem?_getD, List.getElem?_eq_getElem ha, List.getElem?_eq_getElem hb,
    Option.getD_some] at hab
  have := pt_inj (hlt _ (List.getElem_mem ha)) (hlt _ (List.getElem_mem hb)) hab
  exact hnd.getElem_inj_iff.1 this

theorem interp_zero (idx : List ℕ) (hnd : idx.Nodup) (hlt : ∀ j ∈ idx, j + 1 < PyField.modulus F) (P : F[X])
    (hdeg : P.degree < (idx.length : WithBot ℕ)) :
    P.eval 0 = ∑ k ∈ range idx.length, lam idx k * P.eval (pt F (idx.getD k 0)) := by
  have h := Lagrange.eq_interpolate_of_eval_eq (s := range idx.length) (v := fun k => pt F (idx.getD k 0))
    (fun k => P.eval (pt F (idx.getD k 0))) (pts_injOn hnd hlt) (by rwa [card_range]) (fun k _ => rfl)
  conv_lhs => rw [h]
  rw [Lagrange.interpolate_apply, eval_finsetSum]
  apply Finset.sum_congr rfl
  intro k _
  rw [eval_mul, eval_C, mul_comm]
  rfl

theorem lam_sum (idx : List ℕ) (hnd : idx.Nodup) (hlt : ∀ j ∈ idx, j + 1 < PyField.modulus F) (h : idx ≠ []) :
    ∑ k ∈ range idx.length, lam (F := F) idx k = 1 := by
  have := interp_zero idx hnd hlt (1 : F[X]) (by
    rw [degree_one]; exact_mod_cast List.length_pos_iff.2 h)
  simpa using this.symm

/-- `shamir_unshard` on arbitrary shares -/
theorem unshard_eq (idx : List ℕ) (hnd : idx.Nodup) (hlt : ∀ j ∈ idx, j + 1 < PyField.modulus F)
    (hne : idx ≠ []) (n : ℕ) (sh : ℕ → ℕ → F) :
    shamirUnshard (idx.map fun j : ℕ => (j : ℤ)) (tab idx.length fun k => tab n (sh k)) =
      if 2 ≤ idx.length ∧ ∃ i < n, ∀ k < idx.length, sh k i = 0 then .error .index
      else .ok (tab n fun i => ∑ k ∈ range idx.length, lam idx k * sh k i) := by
  have hpos : 0 < idx.length := List.length_pos_iff.2 hne
  unfold shamirUnshard
  rw [getI_tab hpos]
  simp only [Except.ok_bind', tab_length]
  have hpts : ∀ i < n, mapRes (fun (js : ℤ × List F) => do
      let x ← ofInt F (js.1 + 1)
      let f ← getI js.2 i
      return (x, f)) ((idx.map fun j : ℕ => (j : ℤ)).zip (tab idx.length fun k => tab n (sh k))) =
        .ok (tab idx.length fun k => (pt F (idx.getD k 0), sh k i)) := by
    intro i hi
    have hz : (idx.map fun j : ℕ => (j : ℤ)).zip (tab idx.length fun k => tab n (sh k)) =
        tab idx.length fun k => ((idx.getD k 0 : ℤ), tab n (sh k)) := by
      apply List.ext_getElem
      · simp
      · intro k h1 h2
        rw [List.getElem_zip, tab_getElem, tab_getElem]
        simp only [tab_length] at h2
        simp [h2]
    rw [hz]
    unfold tab
    rw [mapRes_map, mapRes_pure]
    intro k hk
    have hk : k < idx.length := by simpa using hk
    simp only [Function.comp]
    have : idx.getD k 0 = idx[k] := by simp [hk]
    rw [this, ofInt_pt (hlt _ (List.getElem_mem hk))]
    simp only [Except.ok_bind']
    rw [show List.map (sh k) (List.range n) = tab n (sh k) from rfl, getI_tab hi]
    rfl
  have hi : ∀ i < n, (do
      let points ← mapRes (fun (js : ℤ × List F) => do
        let x ← ofInt F (js.1 + 1)
        let f ← getI js.2 i
        return (x, f)) ((idx.map fun j : ℕ => (j : ℤ)).zip (tab idx.length fun k => tab n (sh k)))
      let coeffs ← polyInterp (points.map Prod.fst) (points.map Prod.snd)
      getI coeffs 0) = if 2 ≤ idx.length ∧ ∀ k < idx.length, sh k i = 0 then .error .index
        else .ok (∑ k ∈ range idx.length, lam idx k * sh k i) := by
    intro i hi
    rw [hpts i hi]
    simp only [Except.ok_bind', tab_map]
    obtain ⟨p, h1, h2, h3, h4⟩ := polyInterp_trimmed (tab idx.length fun k => pt F (idx.getD k 0))
      (tab idx.length fun k => sh k i) (by simp) (by simpa using hpos) (by
        rw [List.nodup_iff_injective_getElem]
        intro a b hab
        have ha := a.2
        have hb := b.2
        simp only [tab_length] at ha hb
        simp only [tab_getElem] at hab
        exact Fin.ext (pts_injOn hnd hlt (by simpa using ha) (by simpa using hb) hab))
    rw [h1]
    simp only [Except.ok_bind', tab_length, tab_getElem] at *
    have hdeg : (Spec.poly p).degree < (idx.length : WithBot ℕ) := by
      rw [Polynomial.degree_lt_iff_coeff_zero]
      intro m hm
      rw [poly_coeff, coef_of_le (by omega)]
    have h0 := interp_zero idx hnd hlt _ hdeg
    have hs : ∑ k ∈ range idx.length, lam idx k * (Spec.poly p).eval (pt F (idx.getD k 0)) =
        ∑ k ∈ range idx.length, lam idx k * sh k i :=
      Finset.sum_congr rfl fun k hk => by rw [h3 k (by simpa using hk)]
    rw [hs, ← Polynomial.coeff_zero_eq_eval_zero, poly_coeff] at h0
    by_cases hz : 2 ≤ idx.length ∧ ∀ k < idx.length, sh k i = 0
    · rw [if_pos hz]
      have hp0 : Spec.poly p = 0 := by
        apply Polynomial.eq_zero_of_degree_lt_of_eval_index_eq_zero (s := range idx.length)
          (v := fun k => pt F (idx.getD k 0)) (pts_injOn hnd hlt) (by rwa [card_range])
        intro k hk
        rw [h3 k (by simpa using hk), hz.2 k (by simpa using hk)]
      have hp : p = [] := by
        by_contra hpn
        have hl : 0 < p.length := List.length_pos_iff.2 hpn
        have := poly_coeff p (p.length - 1)
        rw [hp0, coeff_zero, coef_of_lt (by omega)] at this
        apply h4 hz.1
        rw [List.getLast?_eq_getElem?, List.getElem?_eq_getElem (by omega), ← this]
      rw [hp]
      rfl
    · rw [if_neg hz]
      have hp : p ≠ [] := by
        rintro rfl
        have hall : ∀ k < idx.length, sh k i = 0 := fun k hk => by
          rw [← h3 k hk, poly_nil, eval_zero]
        by_cases h2 : 2 ≤ idx.length
        · exact hz ⟨h2, hall⟩
        · have hone : idx.length = 1 := by omega
          unfold polyInterp at h1
          rw [pyAssert_of' (by simp), getI_tab hpos] at h1
          simp [hone] at h1
      have hl : 0 < p.length := List.length_pos_iff.2 hp
      rw [getI_of_lt hl, ← coef_of_lt hl, h0]
  by_cases hbad : 2 ≤ idx.length ∧ ∃ i < n, ∀ k < idx.length, sh k i = 0
  · rw [if_pos hbad]
    obtain ⟨h2, i, hin, hz⟩ := hbad
    have key : ∀ l : List ℕ, (∀ i ∈ l, i < n) → (∃ i ∈ l, ∀ k < idx.length, sh k i = 0) →
        mapRes (fun i => do
          let points ← mapRes (fun (js : ℤ × List F) => do
            let x ← ofInt F (js.1 + 1)
            let f ← getI js.2 i
            return (x, f)) ((idx.map fun j : ℕ => (j : ℤ)).zip (tab idx.length fun k => tab n (sh k)))
          let coeffs ← polyInterp (points.map Prod.fst) (points.map Prod.snd)
          getI coeffs 0) l = .error .index := by
      intro l
      induction l with
      | nil => rintro - ⟨i, h, -⟩; simp at h
      | cons a l ih =>
        intro hl hex
        rw [mapRes_cons, hi a (hl a (by simp))]
        by_cases ha : ∀ k < idx.length, sh k a = 0
        · rw [if_pos ⟨h2, ha⟩]; rfl
        · rw [if_neg (fun h => ha h.2)]
          simp only [Except.ok_bind']
          rw [ih (fun i hi => hl i (by simp [hi]))]
          · rfl
          · obtain ⟨i, hi', hz'⟩ := hex
            rcases List.mem_cons.1 hi' with rfl | hm
            · exact absurd hz' ha
            · exact ⟨i, hm, hz'⟩
    exact key _ (by simp) ⟨i, by simpa using hin, hz⟩
  · rw [if_neg hbad]
    rw [mapRes_pure]
    · rfl
    · intro i hin
      have hin : i < n := by simpa using hin
      rw [hi i hin, if_neg]
      rintro ⟨h2, hz⟩
      exact hbad ⟨h2, i, hin, hz⟩

theorem cpoly_degree (m : F) {t n : ℕ} (ht : 1 ≤ t) (htn : t ≤ n) (r : ℕ → F) :
    (cpoly m t r).degree < (n : WithBot ℕ) := by
  rw [Polynomial.degree_lt_iff_coeff_zero]
  intro k hk
  unfold cpoly
  rw [coeff_add, finset_sum_coeff, coeff_C, if_neg (by omega), zero_add]
  apply Finset.sum_eq_zero
  intro j hj
  rw [coeff_C_mul, coeff_X_pow, if_neg (by simp at hj; omega), mul_zero]

theorem cpoly_coeff_zero (m : F) (t : ℕ) (r : ℕ → F) : (cpoly m t r).coeff 0 = m := by
  simp [cpoly, finset_sum_coeff, coeff_X_pow]

theorem cpoly_coeff_succ (m : F) (t : ℕ) (r : ℕ → F) (k : ℕ) :
    (cpoly m t r).coeff (k + 1) = if k < t - 1 then r k else 0 := by
  simp [cpoly, finset_sum_coeff, coeff_X_pow, coeff_C]

theorem cpoly_eq_zero_iff (m : F) (t : ℕ) (r : ℕ → F) : cpoly m t r = 0 ↔ m = 0 ∧ ∀ k < t - 1, r k = 0 := by
  constructor
  · intro h
    refine ⟨by rw [← cpoly_coeff_zero m t r, h, coeff_zero], fun k hk => ?_⟩
    have := cpoly_coeff_succ m t r k
    rw [h, coeff_zero, if_pos hk] at this
    exact this.symm
  · rintro ⟨rfl, h⟩
    unfold cpoly
    rw [Finset.sum_eq_zero fun k hk => by rw [h k (by simpa using hk)]; simp]
    simp

theorem pick {α : Type} {num : ℕ} {f : ℕ → α} {idx : List ℕ} (h : ∀ j ∈ idx, j < num) :
    mapRes (getI (tab num f)) idx = .ok (tab idx.length fun k => f (idx.getD k 0)) := by
  rw [mapRes_pure _ f _ fun j hj => getI_tab (h j hj)]
  congr 1
  apply List.ext_getElem
  · simp
  · intro k h1 h2
    rw [tab_getElem]
    simp only [List.length_map] at h1
    simp [h1]

theorem getD_lt {num : ℕ} {idx : List ℕ} (h : ∀ j ∈ idx, j < num) {k : ℕ} (hk : k < idx.length) :
    idx.getD k 0 < num := by
  have : idx.getD k 0 = idx[k] := by simp [hk]
  rw [this]
  exact h _ (List.getElem_mem hk)

/-- `shamir_unshard` on shares of a sharing -/
theorem unshard_shard (meas : List F) (t num : ℕ) (rand : ℕ → ℕ → F) (hnum : num < PyField.modulus F) (ht : 1 ≤ t)
    (idx : List ℕ) (hnd : idx.Nodup) (hlt : ∀ j ∈ idx, j < num) (htl : t ≤ idx.length) :
    shamirUnshard (idx.map fun j : ℕ => (j : ℤ)) (tab idx.length fun k => tab meas.length fun i =>
      (cpoly (coef meas i) t (rand i)).eval (pt F (idx.getD k 0))) =
    if 2 ≤ idx.length ∧ ∃ i < meas.length, coef meas i = 0 ∧ ∀ k < t - 1, rand i k = 0 then .error .index
    else .ok meas := by
  have hlt' : ∀ j ∈ idx, j + 1 < PyField.modulus F := fun j hj => by have := hlt j hj; omega
  rw [unshard_eq idx hnd hlt' (List.length_pos_iff.1 (by omega))]
  have hiff : ∀ i, (∀ k < idx.length, (cpoly (coef meas i) t (rand i)).eval (pt F (idx.getD k 0)) = 0) ↔
      (coef meas i = 0 ∧ ∀ k < t - 1, rand i k = 0) := by
    intro i
    rw [← cpoly_eq_zero_iff]
    constructor
    · intro h
      exact Polynomial.eq_zero_of_degree_lt_of_eval_index_eq_zero (s := range idx.length)
        (v := fun k => pt F (idx.getD k 0)) (pts_injOn hnd hlt')
        (by rw [card_range]; exact cpoly_degree _ ht htl _) fun k hk => h k (by simpa using hk)
    · intro h k _
      rw [h, eval_zero]
  simp only [hiff]
  congr 2
  apply list_eq_of_coef
  · simp
  · intro i hi
    rw [tab_length] at hi
    rw [coef_tab, if_pos hi, ← interp_zero idx hnd hlt' _ (cpoly_degree _ ht htl _),
      ← coeff_zero_eq_eval_zero, cpoly_coeff_zero]

theorem cpoly_eval_sum (m : F) (t : ℕ) (r : ℕ → F) (x : F) :
    (cpoly m t r).eval x = m + ∑ k ∈ range (t - 1), r k * x ^ (k + 1) := by
  simp [cpoly, eval_finsetSum]

/-- Any `t - 1` values at distinct points determine the random coefficients. -/
theorem cpoly_exists (m : F) {t : ℕ} (ht : 1 ≤ t) (idx : List ℕ) (hnd : idx.Nodup)
    (hlt : ∀ j ∈ idx, j + 1 < PyField.modulus F) (hl : idx.length = t - 1) (y : ℕ → F) :
    (∃ r : ℕ → F, ∀ k < t - 1, (cpoly m t r).eval (pt F (idx.getD k 0)) = y k) ∧
    ∀ r r' : ℕ → F, (∀ k < t - 1, (cpoly m t r).eval (pt F (idx.getD k 0)) = y k) →
      (∀ k < t - 1, (cpoly m t r').eval (pt F (idx.getD k 0)) = y k) → ∀ k < t - 1, r' k = r k := by
  obtain ⟨t, rfl⟩ : ∃ t', t = t' + 1 := ⟨t - 1, by omega⟩
  simp only [Nat.add_sub_cancel] at *
  let v : ℕ → F := fun k => if k = 0 then 0 else pt F (idx.getD (k - 1) 0)
  have hpt : ∀ k < t, pt F (idx.getD k 0) ≠ 0 := fun k hk => pt_ne_zero (by
    have : idx.getD k 0 = idx[k] := by simp [hl, hk]
    rw [this]
    exact hlt _ (List.getElem_mem _))
  have hv : Set.InjOn v (range (t + 1) : Finset ℕ) := by
    intro a ha b hb hab
    simp only [coe_range, Set.mem_Iio] at ha hb
    simp only [v] at hab
    by_cases h0 : a = 0 <;> by_cases h1 : b = 0
    · omega
    · rw [if_pos h0, if_neg h1] at hab
      exact absurd hab.symm (hpt _ (by omega))
    · rw [if_neg h0, if_pos h1] at hab
      exact absurd hab (hpt _ (by omega))
    · rw [if_neg h0, if_neg h1] at hab
      have := pts_injOn (F := F) hnd hlt (by simp; omega) (by simp; omega) hab
      omega
  constructor
  · let w : ℕ → F := fun k => if k = 0 then m else y (k - 1)
    let P := Lagrange.interpolate (range (t + 1)) v w
    have hdeg : P.degree < ((t + 1 : ℕ) : WithBot ℕ) := by
      have := Lagrange.degree_interpolate_lt (r := w) hv
      rwa [card_range] at this
    have hP : cpoly m (t + 1) (fun k => P.coeff (k + 1)) = P := by
      ext k
      rcases k with - | k
      · rw [cpoly_coeff_zero, coeff_zero_eq_eval_zero]
        have := Lagrange.eval_interpolate_at_node w hv (show 0 ∈ range (t + 1) by simp)
        simp only [v, w, if_true] at this
        exact this.symm
      · rw [cpoly_coeff_succ]
        split
        · rfl
        · next h =>
          symm
          exact (Polynomial.degree_lt_iff_coeff_zero _ _).1 hdeg _ (by omega)
    refine ⟨fun k => P.coeff (k + 1), fun k hk => ?_⟩
    rw [hP]
    have := Lagrange.eval_interpolate_at_node w hv (show k + 1 ∈ range (t + 1) by simpa using hk)
    have e1 : v (k + 1) = pt F (idx.getD k 0) := by simp only [v, if_neg (Nat.succ_ne_zero k), Nat.add_sub_cancel]
    have e2 : w (k + 1) = y k := by simp only [w, if_neg (Nat.succ_ne_zero k), Nat.add_sub_cancel]
    rw [e1, e2] at this
    exact this
  · intro r r' h h' k hk
    have : cpoly m (t + 1) r' = cpoly m (t + 1) r := by
      apply Polynomial.eq_of_degrees_lt_of_eval_index_eq (s := range (t + 1)) (v := v) hv
      · rw [card_range]; exact cpoly_degree _ (by omega) le_rfl _
      · rw [card_range]; exact cpoly_degree _ (by omega) le_rfl _
      · intro k hk
        simp only [v]
        split
        · rw [← coeff_zero_eq_eval_zero, ← coeff_zero_eq_eval_zero, cpoly_coeff_zero, cpoly_coeff_zero]
        · have : k - 1 < t := by simp at hk; omega
          rw [h _ this, h' _ this]
    have hc := congrArg (fun P => P.coeff (k + 1)) this
    simp only [cpoly_coeff_succ] at hc
    simpa [hk] using hc

end Vdaf.Shamir
