import Verif.Model.Robustness
import Verif.Spec.Robustness
import Verif.Proofs.Custom
import Verif.Proofs.Prio3Sound
import Verif.Proofs.Hiding
import Mathlib.Algebra.Order.Field.Rat
import Mathlib.Tactic.Positivity
import Mathlib.Data.Set.Card.Arithmetic
import Mathlib.Algebra.BigOperators.Field

/-!
# Lemmas for the robustness bounds
-/

namespace Vdaf
open Finset

section
variable {F : Type} {Meas Agg : Type}

/-- The sum of the degrees of the gadget polynomials -/
def totalDegree (V : Valid F Meas Agg) : ℕ :=
  ((List.zip V.gadgets V.gadgetCalls).map fun x => x.1.degree * (2 ^ Nat.size x.2 - 1)).sum

theorem degree_le_total (V : Valid F Meas Agg) (g : Gadget F) (c p : ℕ)
    (h : (g, c) ∈ List.zip V.gadgets V.gadgetCalls) (hp : wirePolyLen c = .ok p) :
    g.degree * (p - 1) ≤ totalDegree V := by
  rw [wirePolyLen_ok] at hp
  subst hp
  exact List.single_le_sum (fun _ _ => Nat.zero_le _) _ (List.mem_map.2 ⟨_, h, rfl⟩)

theorem queryRandLen_pos {V : Valid F Meas Agg} (hg : V.gadgets ≠ []) : 0 < V.queryRandLen := by
  have := List.length_pos_iff.2 hg
  unfold Valid.queryRandLen
  split <;> omega

end

section
variable {F : Type} [NttField F] {Meas Agg : Type}

theorem padded_eq (V : Valid F Meas Agg) :
    Spec.paddedSoundness V = (totalDegree V : ℚ) / (PyField.modulus F : ℚ) := by
  unfold Spec.paddedSoundness totalDegree
  generalize List.zip V.gadgets V.gadgetCalls = l
  induction l with
  | nil => simp
  | cons x l ih =>
    simp only [List.map_cons, List.sum_cons, Nat.cast_add, add_div]
    rw [ih]

theorem total_pos {V : Valid F Meas Agg} (hV : Spec.Circuit V) (hg : V.gadgets ≠ []) : 1 ≤ totalDegree V := by
  obtain ⟨g, gs, hgs⟩ := List.exists_cons_of_ne_nil hg
  have hl := hV.calls_length
  rw [hgs, List.length_cons] at hl
  obtain ⟨c, cs, hcs⟩ := List.exists_cons_of_length_eq_add_one hl
  have h1 := (hV.gadget_pos g (by rw [hgs]; simp)).2
  have h2 := hV.calls_pos c (by rw [hcs]; simp)
  have h3 : 2 ≤ 2 ^ Nat.size c := by
    have := Nat.lt_size_self c
    omega
  refine le_trans ?_ (degree_le_total V g c (2 ^ Nat.size c) (by rw [hgs, hcs]; simp) (by rw [wirePolyLen_ok]))
  exact Nat.mul_pos h1 (by omega)

theorem modulus_pos_rat (F : Type) [NttField F] : (0 : ℚ) < (PyField.modulus F : ℚ) :=
  Nat.cast_pos.2 (lt_trans Nat.zero_lt_one (one_lt_modulus F))

theorem accept_ncard {V : Valid F Meas Agg} (hV : Spec.Circuit V) (hg : V.gadgets ≠ []) {meas jr π : List F}
    (hmeas : meas.length = V.measLen) (hjr : jr.length = V.jointRandLen) (hinv : ¬ Spec.Accepts V meas jr)
    (hπ : V.proofLen = .ok π.length) :
    Set.ncard {qr : Fin V.queryRandLen → F |
      ∃ v, V.query meas π (List.ofFn qr) jr 1 = .ok v ∧ V.decide v = .ok true} ≤
      totalDegree V * PyField.modulus F ^ (V.queryRandLen - 1) := by
  have h := circuit_iff.1 hV
  obtain ⟨out, log, -, -, -, -, hout⟩ := h.evalPlain_eq hmeas hjr le_rfl (one_lt_modulus F)
  have hne : ∃ x ∈ out, x ≠ 0 := by
    by_contra hc
    push Not at hc
    exact hinv ⟨out, hout, hc⟩
  have := h.sound hmeas hjr hout hne (h.proofLen_iff.1 hπ) (totalDegree V) (total_pos hV hg)
    (h.bound_zip _ (degree_le_total V))
  rwa [card_eq] at this

theorem pow_pred_div {n : ℕ} (hn : 0 < n) {p : ℚ} (hp : p ≠ 0) (w : ℚ) : w * p ^ (n - 1) / p ^ n = w / p := by
  obtain ⟨m, rfl⟩ := Nat.exists_eq_add_of_lt hn
  rw [show 0 + m + 1 - 1 = m by omega, show 0 + m + 1 = m + 1 by omega, pow_succ]
  field_simp

theorem calls_lt_modulus {V : Valid F Meas Agg} (hV : Spec.Circuit V) {g : Gadget F} {c : ℕ}
    (h : (g, c) ∈ List.zip V.gadgets V.gadgetCalls) : 1 ≤ c ∧ c < PyField.modulus F := by
  obtain ⟨i, hi, he⟩ := List.getElem_of_mem h
  simp only [List.getElem_zip, Prod.mk.injEq] at he
  rw [List.length_zip] at hi
  have h1 : V.gadgets[i]? = some g := by rw [List.getElem?_eq_getElem (by omega), he.1]
  have h2 : V.gadgetCalls[i]? = some c := by rw [List.getElem?_eq_getElem (by omega), he.2]
  have h3 := hV.fits i g c (2 ^ Nat.size c) h1 h2 (by rw [wirePolyLen_ok])
  have h4 := (hV.gadget_pos g (List.mem_of_getElem? h1)).2
  have h5 := hV.calls_pos c (List.mem_of_getElem? h2)
  have h6 := Nat.lt_size_self c
  have h7 := Nat.le_of_dvd (by have := one_lt_modulus F; omega) (genOrder_dvd F)
  unfold gadgetPolyLen at h3
  have h8 : 1 * (2 ^ Nat.size c - 1) ≤ g.degree * (2 ^ Nat.size c - 1) := Nat.mul_le_mul_right _ h4
  omega

theorem sum_le_sum_list {α : Type} (l : List α) {f g : α → ℚ} (h : ∀ x ∈ l, f x ≤ g x) :
    (l.map f).sum ≤ (l.map g).sum := by
  induction l with
  | nil => simp
  | cons x l ih =>
    simp only [List.map_cons, List.sum_cons]
    exact add_le_add (h x (by simp)) (ih fun y hy => h y (by simp [hy]))

theorem term_le {D c P p a : ℕ} (hc : c < p) (h : P - 1 ≤ a * c) :
    ((D * (P - 1) : ℕ) : ℚ) / (p : ℚ) ≤ (a : ℚ) * (((c * D : ℕ) : ℚ) / ((p : ℚ) - (c : ℚ))) := by
  have hp : (0 : ℚ) < (p : ℚ) - (c : ℚ) := by
    rw [sub_pos]
    exact_mod_cast hc
  have hle : (p : ℚ) - (c : ℚ) ≤ (p : ℚ) := by
    have : (0 : ℚ) ≤ (c : ℚ) := Nat.cast_nonneg _
    linarith
  rw [← mul_div_assoc]
  refine div_le_div₀ (by positivity) ?_ hp hle
  have : D * (P - 1) ≤ a * (c * D) := by
    calc D * (P - 1) ≤ D * (a * c) := Nat.mul_le_mul_left _ h
      _ = a * (c * D) := by ring
  exact_mod_cast this

theorem size_le_double {c : ℕ} (hc : 1 ≤ c) : 2 ^ Nat.size c - 1 ≤ 2 * c := by
  have h : 2 ^ (Nat.size c - 1) ≤ c := by
    have := (Nat.lt_size (m := Nat.size c - 1) (n := c)).1 (by have := Nat.size_pos.2 hc; omega)
    exact this
  have h2 : 2 ^ Nat.size c = 2 * 2 ^ (Nat.size c - 1) := by
    rw [← pow_succ']
    congr 1
    have := Nat.size_pos.2 hc
    omega
  omega

theorem padded_le_double {V : Valid F Meas Agg} (hV : Spec.Circuit V) :
    Spec.paddedSoundness V ≤ 2 * baseSoundness V := by
  unfold Spec.paddedSoundness baseSoundness
  rw [← List.sum_map_mul_left]
  refine sum_le_sum_list _ fun x hx => ?_
  obtain ⟨h1, h2⟩ := calls_lt_modulus hV (g := x.1) (c := x.2) hx
  exact term_le (a := 2) h2 (size_le_double h1)

theorem padded_le_base {V : Valid F Meas Agg} (hV : Spec.Circuit V) (hu : Spec.Unpadded V) :
    Spec.paddedSoundness V ≤ baseSoundness V := by
  unfold Spec.paddedSoundness baseSoundness
  refine sum_le_sum_list _ fun x hx => ?_
  obtain ⟨h1, h2⟩ := calls_lt_modulus hV (g := x.1) (c := x.2) hx
  obtain ⟨k, hk⟩ := hu x.2 (List.of_mem_zip hx).2
  have h3 : 2 ^ Nat.size x.2 ≤ 2 ^ k := Nat.pow_le_pow_right (by omega) (Nat.size_le.2 (by omega))
  simpa using term_le (D := x.1.degree) (P := 2 ^ Nat.size x.2) (a := 1) h2 (by omega)

/-- A set of pairs, fibre by fibre -/
theorem ncard_fibres {α β : Type} [Finite α] [Finite β] (P : α → β → Prop) (A : Set α) (a b w : ℕ) (hA : A.ncard ≤ a)
    (hb : Nat.card β = b) (hw : ∀ x, x ∉ A → Set.ncard {y | P x y} ≤ w) :
    Set.ncard {r : α × β | P r.1 r.2} ≤ a * b + Nat.card α * w := by
  classical
  have := Fintype.ofFinite α
  have := Fintype.ofFinite β
  have e : Set.ncard {r : α × β | P r.1 r.2} = ∑ x : α, Set.ncard {y | P x y} := by
    rw [← Nat.card_coe_set_eq, Nat.card_congr (show ↥{r : α × β | P r.1 r.2} ≃ Σ x : α, ↥{y | P x y} from
      Equiv.subtypeProdEquivSigmaSubtype P), Nat.card_sigma]
    exact Finset.sum_congr rfl fun x _ => Nat.card_coe_set_eq _
  have hle : ∀ x, Set.ncard {y | P x y} ≤ (if x ∈ A then b else 0) + w := by
    intro x
    by_cases hx : x ∈ A
    · rw [if_pos hx, ← hb]
      exact le_trans (Set.ncard_le_card _) (Nat.le_add_right _ _)
    · rw [if_neg hx, zero_add]
      exact hw x hx
  rw [e]
  refine le_trans (Finset.sum_le_sum fun x _ => hle x) ?_
  rw [Finset.sum_add_distrib, Finset.sum_const, Finset.card_univ, smul_eq_mul, Nat.card_eq_fintype_card,
    ← Finset.sum_filter, Finset.sum_const, smul_eq_mul]
  refine Nat.add_le_add_right (Nat.mul_le_mul_right _ ?_) _
  rw [Set.ncard_eq_toFinset_card'] at hA
  refine le_trans (Finset.card_le_card ?_) hA
  intro x hx
  simpa using hx

/-- Union bound for `n` independent attempts -/
theorem union_bound {Q : Type} [Finite Q] [Nonempty Q] {n : ℕ} (Bad : Fin n → Set Q) (ε : ℚ)
    (h : ∀ i, ((Bad i).ncard : ℚ) / (Nat.card Q : ℚ) ≤ ε) :
    (Set.ncard {f : Fin n → Q | ∃ i, f i ∈ Bad i} : ℚ) / (Nat.card Q : ℚ) ^ n ≤ n * ε := by
  classical
  have hQ : (0 : ℚ) < (Nat.card Q : ℚ) := Nat.cast_pos.2 Nat.card_pos
  have one : ∀ i, Set.ncard {f : Fin n → Q | f i ∈ Bad i} * Nat.card Q = (Bad i).ncard * Nat.card Q ^ n := by
    intro i
    have e : {f : Fin n → Q | f i ∈ Bad i} = {f : Fin n → Q | ∀ j, (j = i → f j ∈ Bad i)} := by
      ext f
      exact ⟨fun h j hj => hj ▸ h, fun h => h i rfl⟩
    rw [e, ncard_pi fun j (x : Q) => j = i → x ∈ Bad i, ← Finset.mul_prod_erase _ _ (Finset.mem_univ i),
      Finset.prod_congr rfl (g := fun _ => Nat.card Q) (fun j hj => ?_), Finset.prod_const,
      Finset.card_erase_of_mem (Finset.mem_univ i), Finset.card_univ, Fintype.card_fin, mul_assoc, ← pow_succ,
      show n - 1 + 1 = n by have := i.2; omega]
    · simp
    · have : ({x | j = i → x ∈ Bad i} : Set Q) = Set.univ := by
        ext x
        simp [(Finset.mem_erase.1 hj).1]
      rw [this, Set.ncard_univ]
  have hle : Set.ncard {f : Fin n → Q | ∃ i, f i ∈ Bad i} ≤ ∑ i, Set.ncard {f : Fin n → Q | f i ∈ Bad i} := by
    have e : {f : Fin n → Q | ∃ i, f i ∈ Bad i} = ⋃ i ∈ (Finset.univ : Finset (Fin n)), {f : Fin n → Q | f i ∈ Bad i} := by
      ext f
      simp
    rw [e]
    exact Finset.set_ncard_biUnion_le _ _
  have each : ∀ i, (Set.ncard {f : Fin n → Q | f i ∈ Bad i} : ℚ) / (Nat.card Q : ℚ) ^ n ≤ ε := by
    intro i
    refine le_trans (le_of_eq ?_) (h i)
    rw [div_eq_div_iff (pow_ne_zero _ hQ.ne') hQ.ne']
    exact_mod_cast one i
  calc _ ≤ (∑ i, (Set.ncard {f : Fin n → Q | f i ∈ Bad i} : ℚ)) / (Nat.card Q : ℚ) ^ n := by
        refine div_le_div_of_nonneg_right ?_ (by positivity)
        exact_mod_cast hle
    _ = ∑ i, (Set.ncard {f : Fin n → Q | f i ∈ Bad i} : ℚ) / (Nat.card Q : ℚ) ^ n := Finset.sum_div _ _ _
    _ ≤ ∑ _i : Fin n, ε := Finset.sum_le_sum fun i _ => each i
    _ = n * ε := by simp

end
end Vdaf
