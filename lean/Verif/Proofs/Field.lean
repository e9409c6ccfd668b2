import Verif.Model.Field
import Verif.Proofs.Common
import Mathlib.Algebra.CharP.Basic
import Mathlib.Data.Fintype.Card

/-! Lemmas about the generic field interface and the vector codecs. -/

namespace Vdaf
variable {F : Type} [PyField F]

theorem modulus_pos (F : Type) [PyField F] : 0 < PyField.modulus F :=
  lt_of_le_of_lt (Nat.zero_le _) (PyField.toNat_lt (0 : F))

theorem one_lt_modulus (F : Type) [PyField F] : 1 < PyField.modulus F := by
  by_contra h
  have h1 : PyField.modulus F = 1 := by have := modulus_pos F; omega
  have h0 : ∀ x : F, PyField.toNat x = 0 := fun x => by
    have := PyField.toNat_lt x; omega
  have : (0 : F) = 1 := by
    rw [← PyField.natCast_toNat (0 : F), ← PyField.natCast_toNat (1 : F), h0, h0]
  exact zero_ne_one this

theorem toNat_inj {x y : F} (h : PyField.toNat x = PyField.toNat y) : x = y := by
  rw [← PyField.natCast_toNat x, h, PyField.natCast_toNat]

theorem ofInt_nat {n : Nat} (h : n < PyField.modulus F) : ofInt F (n : Int) = .ok (n : F) := by
  unfold ofInt
  rw [if_pos (by exact_mod_cast h), if_pos (by omega)]
  simp

theorem ofInt_eq {z : Int} (h1 : z < PyField.modulus F) (h2 : -(PyField.modulus F : Int) < z) :
    ofInt F z = .ok (z : F) := by
  unfold ofInt
  rw [if_pos h1, if_pos h2]

theorem ofInt_neg_one : ofInt F (-1) = .ok (-1) := by
  have := one_lt_modulus F
  rw [ofInt_eq (by omega) (by omega)]; simp

/-- Field elements correspond to integers below the modulus. -/
def equivFin (F : Type) [PyField F] : F ≃ Fin (PyField.modulus F) where
  toFun x := ⟨PyField.toNat x, PyField.toNat_lt x⟩
  invFun i := (i.val : F)
  left_inv x := PyField.natCast_toNat x
  right_inv i := by ext; exact PyField.toNat_natCast _ i.2

instance : Fintype F := Fintype.ofEquiv _ (equivFin F).symm

theorem card_eq (F : Type) [PyField F] : Fintype.card F = PyField.modulus F := by
  rw [Fintype.card_congr (equivFin F), Fintype.card_fin]

theorem natCast_inj_of_lt {a b : Nat} (ha : a < PyField.modulus F) (hb : b < PyField.modulus F)
    (h : (a : F) = (b : F)) : a = b := by
  rw [← PyField.toNat_natCast (F := F) a ha, h, PyField.toNat_natCast b hb]

instance charP_modulus : CharP F (PyField.modulus F) := by
  have hm : ((PyField.modulus F : Nat) : F) = 0 := by
    -- the modulus is zero: otherwise pigeonhole on 0..modulus fails
    have hlt := PyField.toNat_lt ((PyField.modulus F : Nat) : F)
    set r := PyField.toNat ((PyField.modulus F : Nat) : F) with hr
    have hrm : ((r : Nat) : F) = ((PyField.modulus F : Nat) : F) := PyField.natCast_toNat _
    by_contra hne
    have hr0 : r ≠ 0 := by
      intro h0; rw [h0] at hrm; exact hne (by rw [← hrm]; simp)
    have : (((PyField.modulus F - r : Nat)) : F) = ((0 : Nat) : F) := by
      rw [Nat.cast_sub hlt.le, hrm]; simp
    have := natCast_inj_of_lt (by omega) (modulus_pos F) this
    omega
  constructor
  intro x
  constructor
  · intro hx
    have hd := Nat.div_add_mod x (PyField.modulus F)
    have : ((x % PyField.modulus F : Nat) : F) = ((0 : Nat) : F) := by
      rw [← hd] at hx
      push_cast at hx
      rw [hm] at hx
      simpa using hx
    have := natCast_inj_of_lt (Nat.mod_lt _ (modulus_pos F)) (modulus_pos F) this
    exact Nat.dvd_of_mod_eq_zero this
  · rintro ⟨k, rfl⟩
    push_cast; rw [hm]; simp

theorem toNat_natCast_mod (n : Nat) : PyField.toNat (n : F) = n % PyField.modulus F := by
  have : (n : F) = ((n % PyField.modulus F : Nat) : F) := by
    conv_lhs => rw [← Nat.div_add_mod n (PyField.modulus F)]
    push_cast
    rw [CharP.cast_eq_zero F]; simp
  rw [this, PyField.toNat_natCast _ (Nat.mod_lt _ (modulus_pos F))]

theorem toNat_zero : PyField.toNat (0 : F) = 0 := by
  have := toNat_natCast_mod (F := F) 0; simpa using this

theorem toNat_one : PyField.toNat (1 : F) = 1 := by
  have := PyField.toNat_natCast (F := F) 1 (one_lt_modulus F); simpa using this

theorem modulus_prime (F : Type) [PyField F] : (PyField.modulus F).Prime := by
  have := CharP.char_is_prime_or_zero F (PyField.modulus F)
  rcases this with h | h
  · exact h
  · have := modulus_pos F; omega

/-! ### codecs -/

/-- The encoding of one field element. -/
def encOne (x : F) : Bytes := natToLe (PyField.toNat x) (PyField.encSize F)

theorem encOne_length (x : F) : (encOne x).length = PyField.encSize F := natToLe_length _ _

/-- The encoding of a vector of field elements. -/
def encAll (v : List F) : Bytes := v.flatMap encOne

theorem encAll_nil : encAll ([] : List F) = [] := rfl
theorem encAll_cons (x : F) (v : List F) : encAll (x :: v) = encOne x ++ encAll v := rfl
theorem encAll_append (v w : List F) : encAll (v ++ w) = encAll v ++ encAll w := by
  simp [encAll]

theorem encAll_length (v : List F) : (encAll v).length = PyField.encSize F * v.length := by
  induction v with
  | nil => rfl
  | cons x v ih => rw [encAll_cons, List.length_append, encOne_length, ih, List.length_cons]; ring

theorem toNat_lt_enc (x : F) : PyField.toNat x < 256 ^ PyField.encSize F :=
  lt_of_lt_of_le (PyField.toNat_lt x) PyField.modulus_le

theorem encodeVec_eq (v : List F) : encodeVec v = .ok (encAll v) := by
  unfold encodeVec
  rw [forFold_pure v [] _ (fun acc x => acc ++ encOne x)]
  · congr 1
    have : ∀ (acc : Bytes), v.foldl (fun acc x => acc ++ encOne x) acc = acc ++ encAll v := by
      induction v with
      | nil => intro acc; simp [encAll_nil]
      | cons x v ih => intro acc; rw [List.foldl_cons, ih, encAll_cons, List.append_assoc]
    rw [this]; rfl
  · intro b x _
    rw [toLeBytes_nat (toNat_lt_enc x)]; rfl

theorem fromLe_encOne (x : F) : fromLeBytes (encOne x) = PyField.toNat x := by
  rw [fromLeBytes, encOne, natOfLe_natToLe, Nat.mod_eq_of_lt (toNat_lt_enc x)]

theorem decodeLoop_encAll (fuel : Nat) (v acc : List F) (h : v.length ≤ fuel) :
    decodeLoop F fuel (encAll v) acc = .ok (acc ++ v) := by
  induction fuel generalizing v acc with
  | zero =>
    have : v = [] := List.length_eq_zero_iff.1 (by omega)
    subst this; simp [decodeLoop, encAll_nil]
  | succ fuel ih =>
    cases v with
    | nil => simp [decodeLoop, encAll_nil]
    | cons x v =>
      have hpos : (encAll (x :: v)).length > 0 := by
        rw [encAll_length, List.length_cons]
        exact Nat.mul_pos PyField.encSize_pos (Nat.succ_pos _)
      rw [decodeLoop, if_pos hpos, encAll_cons, front_append' (encOne_length x)]
      simp only [Except.ok_bind', fromLe_encOne]
      rw [raiseIf_of_not (by have := PyField.toNat_lt x; omega)]
      simp only [Except.ok_bind']
      rw [ofInt_nat (PyField.toNat_lt x), PyField.natCast_toNat]
      simp only [Except.ok_bind']
      rw [ih v _ (by simpa using h)]
      simp

theorem decodeVec_encAll (v : List F) : decodeVec F (encAll v) = .ok v := by
  unfold decodeVec
  rw [raiseIf_of_not (by rw [encAll_length]; simp)]
  simp only [Except.ok_bind']
  rw [decodeLoop_encAll]
  · simp
  · rw [encAll_length]; exact Nat.le_mul_of_pos_left _ PyField.encSize_pos

theorem decodeLoop_ok (fuel : Nat) (b : Bytes) (acc w : List F)
    (h : decodeLoop F fuel b acc = .ok w) : ∃ v, w = acc ++ v ∧ b = encAll v := by
  induction fuel generalizing b acc with
  | zero =>
    rw [decodeLoop] at h
    split at h
    · cases h
    · cases h; refine ⟨[], by simp, ?_⟩
      rename_i hb; exact List.length_eq_zero_iff.1 (by omega)
  | succ fuel ih =>
    rw [decodeLoop] at h
    split at h
    · simp only [Except.bind_eq_ok, Prod.exists, front_eq_ok, raiseIf_eq_ok] at h
      obtain ⟨x, rest, ⟨rfl, hx⟩, _, h2, fx, h3, h4⟩ := h
      have h2' : fromLeBytes x < PyField.modulus F := by simpa using h2
      rw [ofInt_nat h2'] at h3
      cases h3
      obtain ⟨v, rfl, rfl⟩ := ih _ _ h4
      refine ⟨((fromLeBytes x : Nat) : F) :: v, by simp, ?_⟩
      rw [encAll_cons, encOne, PyField.toNat_natCast _ h2']
      congr 1
      rw [fromLeBytes, ← hx, natToLe_natOfLe]
    · cases h; refine ⟨[], by simp, ?_⟩
      rename_i hb; exact List.length_eq_zero_iff.1 (by omega)

theorem decodeVec_ok {b : Bytes} {v : List F} (h : decodeVec F b = .ok v) : b = encAll v := by
  unfold decodeVec at h
  obtain ⟨_, _, h⟩ := Except.bind_eq_ok.1 h
  obtain ⟨w, hw, hb⟩ := decodeLoop_ok _ _ _ _ h
  simp only [List.nil_append] at hw
  rw [hw]; exact hb

theorem decodeVec_eq_ok {b : Bytes} {v : List F} : decodeVec F b = .ok v ↔ b = encAll v :=
  ⟨decodeVec_ok, by rintro rfl; exact decodeVec_encAll v⟩

theorem encAll_inj {v w : List F} (h : encAll v = encAll w) : v = w := by
  have := decodeVec_encAll v
  rw [h, decodeVec_encAll] at this
  cases this; rfl

theorem decodeLoop_err (fuel : Nat) (b : Bytes) (acc : List F) (e : Err)
    (hlen : b.length ≤ fuel) (hdvd : PyField.encSize F ∣ b.length)
    (h : decodeLoop F fuel b acc = .error e) : e = .value "modulus overflow" := by
  induction fuel generalizing b acc with
  | zero =>
    have : b.length = 0 := by omega
    rw [decodeLoop, if_neg (by omega)] at h
    cases h
  | succ fuel ih =>
    rw [decodeLoop] at h
    split at h
    · rename_i hb
      have hle : PyField.encSize F ≤ b.length := Nat.le_of_dvd hb hdvd
      rw [front_of_le hle] at h
      simp only [Except.ok_bind'] at h
      by_cases hx : fromLeBytes (b.take (PyField.encSize F)) ≥ PyField.modulus F
      · rw [raiseIf_of hx] at h; cases h; rfl
      · rw [raiseIf_of_not hx] at h
        simp only [Except.ok_bind'] at h
        rw [ofInt_nat (by omega)] at h
        simp only [Except.ok_bind'] at h
        refine ih _ _ ?_ ?_ h
        · rw [List.length_drop]; have := PyField.encSize_pos (F := F); omega
        · rw [List.length_drop]; exact Nat.dvd_sub hdvd dvd_rfl
    · cases h

theorem decodeVec_err {b : Bytes} {e : Err} (h : decodeVec F b = .error e) :
    ∃ m, e = .value m := by
  unfold decodeVec at h
  by_cases hb : b.length % PyField.encSize F ≠ 0
  · rw [raiseIf_of hb] at h; cases h; exact ⟨_, rfl⟩
  · rw [raiseIf_of_not hb] at h
    simp only [Except.ok_bind'] at h
    exact ⟨_, decodeLoop_err _ _ _ _ le_rfl (Nat.dvd_of_mod_eq_zero (by simpa using hb)) h⟩

end Vdaf
