import Mathlib.Data.Set.Card
import Mathlib.Data.Fintype.Pi
import Mathlib.Data.Fintype.BigOperators
import Mathlib.SetTheory.Cardinal.Finite
import Mathlib.Data.Fintype.Vector
import Mathlib.Tactic.Ring
import Verif.Spec.Hiding
import Verif.Props.Derive

/-!
# Counting the expansions that lead to a public share
-/

namespace Vdaf
open Spec

/-- There are 256 bytes. -/
def byteEquiv : Fin 256 ≃ UInt8 where
  toFun i := UInt8.ofNat i.val
  invFun b := ⟨b.toNat, b.toNat_lt⟩
  left_inv i := by ext; simp
  right_inv b := by simp

instance : Fintype UInt8 := Fintype.ofEquiv _ byteEquiv

/-! ### Seeds with a given lowest bit -/

theorem lowBit_cons (b : UInt8) (l : Bytes) : lowBit (b :: l) = decide (b.toNat % 2 = 1) := by simp [lowBit]

theorem clearBit_cons (b : UInt8) (l : Bytes) : clearBit (b :: l) = UInt8.ofNat (b.toNat / 2 * 2) :: l := by
  simp [clearBit]

theorem clearBit_length (x : Bytes) : (clearBit x).length = x.length := by
  cases x with
  | nil => rfl
  | cons b l => simp [clearBit_cons]

/-- Set the lowest bit of the first byte -/
def putBit (t : Bool) : Bytes → Bytes
  | [] => []
  | b :: l => (UInt8.ofNat (b.toNat / 2 * 2 + t.toNat)) :: l

theorem putBit_length (t : Bool) (x : Bytes) : (putBit t x).length = x.length := by
  cases x <;> rfl

theorem lowBit_putBit (t : Bool) {x : Bytes} (h : x ≠ []) : lowBit (putBit t x) = t := by
  obtain _ | ⟨b, l⟩ := x
  · exact absurd rfl h
  · rw [putBit, lowBit_cons]
    have := b.toNat_lt
    cases t <;> simp [UInt8.toNat_ofNat']

theorem clearBit_putBit (t : Bool) (x : Bytes) : clearBit (putBit t x) = clearBit x := by
  obtain _ | ⟨b, l⟩ := x
  · rfl
  · rw [putBit, clearBit_cons, clearBit_cons]
    have := b.toNat_lt
    congr 1
    apply UInt8.toNat_inj.1
    cases t <;> simp [UInt8.toNat_ofNat'] <;> omega

theorem putBit_self (x : Bytes) : putBit (lowBit x) (clearBit x) = x := by
  obtain _ | ⟨b, l⟩ := x
  · rfl
  · rw [clearBit_cons, putBit, lowBit_cons]
    have := b.toNat_lt
    congr 1
    apply UInt8.toNat_inj.1
    by_cases h : b.toNat % 2 = 1 <;> simp [UInt8.toNat_ofNat', h] <;> omega

theorem clearBit_of_lowBit {x : Bytes} (h : lowBit x = false) : clearBit x = x := by
  have := putBit_self x
  rw [h] at this
  conv_rhs => rw [← this]
  obtain _ | ⟨b, l⟩ := x
  · rfl
  · rw [clearBit_cons, putBit]
    have := b.toNat_lt
    congr 1
    apply UInt8.toNat_inj.1
    simp [UInt8.toNat_ofNat']
    omega

theorem lowBit_clearBit (x : Bytes) : lowBit (clearBit x) = false := by
  obtain _ | ⟨b, l⟩ := x
  · rfl
  · rw [clearBit_cons, lowBit_cons]
    simp [UInt8.toNat_ofNat']

theorem putBit_inj {t : Bool} {x y : Bytes} (hx : lowBit x = false) (hy : lowBit y = false)
    (h : putBit t x = putBit t y) : x = y := by
  have := congrArg clearBit h
  rwa [clearBit_putBit, clearBit_putBit, clearBit_of_lowBit hx, clearBit_of_lowBit hy] at this

/-- The byte strings of length 16 with a given lowest bit -/
def keepSet (t : Bool) : Set Bytes := {x | x.length = 16 ∧ lowBit x = t}

theorem finite_bytes (n : ℕ) : {x : Bytes | x.length = n}.Finite := by
  have : {x : Bytes | x.length = n} = Set.range (List.Vector.toList : List.Vector UInt8 n → Bytes) := by
    ext x
    constructor
    · intro h
      exact ⟨⟨x, h⟩, rfl⟩
    · rintro ⟨v, rfl⟩
      exact v.2
  rw [this]
  exact Set.finite_range _

theorem ncard_bytes (n : ℕ) : {x : Bytes | x.length = n}.ncard = 256 ^ n := by
  have : {x : Bytes | x.length = n} = (List.Vector.toList : List.Vector UInt8 n → Bytes) '' Set.univ := by
    ext x
    constructor
    · intro h
      exact ⟨⟨x, h⟩, trivial, rfl⟩
    · rintro ⟨v, -, rfl⟩
      exact v.2
  rw [this, Set.ncard_image_of_injective _ List.Vector.toList_injective, Set.ncard_univ, Nat.card_eq_fintype_card, card_vector,
    ← Fintype.card_congr byteEquiv, Fintype.card_fin]

theorem keepSet_ncard (t : Bool) : (keepSet t).ncard = 2 ^ 127 := by
  have h : keepSet t = (fun p : UInt8 × Bytes => p.1 :: p.2) ''
      ({b : UInt8 | decide (b.toNat % 2 = 1) = t} ×ˢ {x : Bytes | x.length = 15}) := by
    ext x
    constructor
    · rintro ⟨h1, h2⟩
      obtain _ | ⟨b, l⟩ := x
      · simp at h1
      · rw [lowBit_cons] at h2
        exact ⟨(b, l), ⟨h2, by simpa using h1⟩, rfl⟩
    · rintro ⟨⟨b, l⟩, ⟨h1, h2⟩, rfl⟩
      simp only [Set.mem_ofPred_eq] at h1 h2
      refine ⟨by simp [h2], ?_⟩
      rw [lowBit_cons]
      exact h1
  have h128 : {b : UInt8 | decide (b.toNat % 2 = 1) = t}.ncard = 128 := by
    have : {b : UInt8 | decide (b.toNat % 2 = 1) = t} =
        ((Finset.univ.filter fun b : UInt8 => decide (b.toNat % 2 = 1) = t : Finset UInt8) : Set UInt8) := by
      ext b; simp
    rw [this, Set.ncard_coe_finset]
    cases t <;> decide +kernel
  rw [h, Set.ncard_image_of_injective, Set.ncard_prod, h128, ncard_bytes]
  · norm_num
  · rintro ⟨a, b⟩ ⟨c, d⟩ h
    simpa using h

theorem xor_cancel {x y : Bytes} (h : x.length = y.length) :
    List.zipWith (· ^^^ ·) x (List.zipWith (· ^^^ ·) x y) = y := by
  induction x generalizing y with
  | nil => cases y with
    | nil => rfl
    | cons => simp at h
  | cons a x ih => cases y with
    | nil => simp at h
    | cons b y =>
      simp only [List.zipWith_cons_cons, List.cons.injEq]
      exact ⟨by rw [← UInt8.xor_assoc, UInt8.xor_self, UInt8.zero_xor], ih (by simpa using h)⟩

theorem lowBit_xor {x y : Bytes} (hx : lowBit x = false) (hy : lowBit y = false) (h : x.length = y.length) :
    lowBit (List.zipWith (· ^^^ ·) x y) = false := by
  obtain _ | ⟨a, x⟩ := x
  · rfl
  obtain _ | ⟨b, y⟩ := y
  · simp at h
  rw [lowBit_cons, decide_eq_false_iff_not] at hx hy
  rw [List.zipWith_cons_cons, lowBit_cons, decide_eq_false_iff_not, UInt8.toNat_xor, Nat.xor_mod_two_eq_one]
  omega

/-! ### One level -/

section
variable {prims : Prims} {I : Idpf} {ctx nonce : Bytes} {b : ℕ} {key : Bytes} {alpha : List Bool}
  {pub : List CorrectionWord} {level : ℕ}

theorem node_exists (hp : level ≤ pub.length) (ha : level ≤ alpha.length) :
    ∃ seed ctrl, Node prims I.bits ctx nonce pub key b (alpha.take level) seed ctrl := by
  induction level with
  | zero => exact ⟨_, _, .root⟩
  | succ n ih =>
    obtain ⟨seed, ctrl, h⟩ := ih (by omega) (by omega)
    have hl : (alpha.take n).length = n := by simp; omega
    have := Node.child _ _ _ alpha[n] pub[n] h (by rw [hl]; exact List.getElem?_eq_getElem _)
    rw [List.take_succ_eq_append_getElem (by omega)]
    exact ⟨_, _, this⟩

/-- The correction of the value, with the sign determined by the control bit -/
def signed {F : Type} [Neg F] (c : Bool) (d : List F) : List F := if c then d.map fun x => -x else d

theorem signed_signed {F : Type} [InvolutiveNeg F] (c : Bool) (d : List F) : signed c (signed c d) = d := by
  cases c <;> simp [signed]

theorem signed_length {F : Type} [Neg F] (c : Bool) (d : List F) : (signed c d).length = d.length := by
  cases c <;> simp [signed]

/-- The value of the other Aggregator, from the correction word -/
def solveValue {F : Type} [Neg F] [Add F] [Sub F] (b : ℕ) (c : Bool) (beta w v : List F) : List F :=
  if b = 0 then List.zipWith (· + ·) (List.zipWith (· - ·) (signed c v) beta) w
  else List.zipWith (· - ·) (List.zipWith (· + ·) beta w) (signed c v)

theorem solveValue_length {F : Type} [Neg F] [Add F] [Sub F] {b n : ℕ} {c : Bool} {beta w v : List F}
    (h1 : beta.length = n) (h2 : w.length = n) (h3 : v.length = n) : (solveValue b c beta w v).length = n := by
  unfold solveValue
  split <;> simp [signed_length, h1, h2, h3]

theorem solveValue_iff {F : Type} [CommRing F] {b n : ℕ} {c : Bool} {beta w v u : List F}
    (h1 : beta.length = n) (h2 : w.length = n) (h3 : v.length = n) (h4 : u.length = n) :
    v = signed c (List.zipWith (· + ·) (List.zipWith (· - ·) beta (if b = 0 then w else u)) (if b = 0 then u else w)) ↔
    u = solveValue b c beta w v := by
  have e : ∀ d : List F, v = signed c d ↔ signed c v = d := fun d =>
    ⟨fun h => by rw [h, signed_signed], fun h => by rw [← h, signed_signed]⟩
  rw [e]
  unfold solveValue
  have h5 := (signed_length c v).trans h3
  generalize signed c v = v' at h5
  split
  · constructor
    · rintro rfl
      refine List.ext_getElem (by simp [h1, h2, h4]) fun i _ _ => ?_
      simp only [List.getElem_zipWith]
      ring
    · rintro rfl
      refine List.ext_getElem (by simp [h1, h2, h5]) fun i _ _ => ?_
      simp only [List.getElem_zipWith]
      ring
  · constructor
    · rintro rfl
      refine List.ext_getElem (by simp [h1, h2, h4]) fun i _ _ => ?_
      simp only [List.getElem_zipWith]
      ring
    · rintro rfl
      refine List.ext_getElem (by simp [h1, h2, h5]) fun i _ _ => ?_
      simp only [List.getElem_zipWith]
      ring

/-- The expansions of one level that lead to a given correction word -/
theorem idealWord_iff (ha : level < alpha.length)
    (hv : ∃ y, NodeValue prims I.bits I.valueLen ctx nonce pub key b (alpha.take (level + 1)) (I.currentField level) y)
    {cw : CorrectionWord} (hcw : pub[level]? = some cw) :
    ∃ (S : Bytes) (T0 T1 c : Bool) (w : List (Fk (I.currentField level))), S.length = 16 ∧ lowBit S = false ∧
      w.length = I.valueLen ∧ ∀ (beta : List (Fk (I.currentField level))) (e : Expansion (I.currentField level)),
      IdealWord prims I ctx nonce b key alpha pub level beta e cw ↔
      cw.seedCw = List.zipWith (· ^^^ ·) S (clearBit (if alpha[level] then e.left else e.right)) ∧
      cw.ctrlCw = ((T0 != lowBit e.left) != !alpha[level], (T1 != lowBit e.right) != alpha[level]) ∧
      cw.wCw = ⟨I.currentField level, signed c (List.zipWith (· + ·)
        (List.zipWith (· - ·) beta (if b = 0 then w else e.value)) (if b = 0 then e.value else w))⟩ := by
  obtain ⟨y, q, seed, ctrl, bit, cw', w, hq, hn, hcw', hr, -⟩ := hv
  rw [List.take_succ_eq_append_getElem ha] at hq
  obtain ⟨rfl, hb⟩ := List.append_inj' hq rfl
  simp only [List.cons.injEq, and_true] at hb
  have hl : (alpha.take level).length = level := by simp; omega
  rw [hl] at hcw' hr
  rw [hcw] at hcw'
  cases hcw'
  subst hb
  refine ⟨clearBit (bytesAt (idpfStream prims I.bits level 0 seed ctx nonce) (if alpha[level] then 0 else 16) 16),
    lowBit (bytesAt (idpfStream prims I.bits level 0 seed ctx nonce) 0 16),
    lowBit (bytesAt (idpfStream prims I.bits level 0 seed ctx nonce) 16 16),
    (if b = 0 then !childCtrl prims I.bits ctx nonce level seed ctrl alpha[level] cw else
      childCtrl prims I.bits ctx nonce level seed ctrl alpha[level] cw), w, ?_, lowBit_clearBit _, hr.1, ?_⟩
  · rw [clearBit_length]; simp [bytesAt]
  intro beta e
  constructor
  · rintro ⟨bit', seed', ctrl', w', h1, h2, h3, ⟨h4, h5⟩, h6⟩
    rw [List.getElem?_eq_getElem ha] at h1
    obtain rfl := Option.some.inj h1
    obtain ⟨rfl, rfl⟩ := C56_node_unique _ _ _ _ _ _ _ hn h2
    obtain ⟨l1, pos, s1⟩ := hr
    obtain ⟨l2, pos', s2⟩ := h3
    obtain ⟨rfl, -⟩ := Samples.unique s1 s2 (l1.trans l2.symm)
    exact ⟨h4, h5, h6⟩
  · rintro ⟨h4, h5, h6⟩
    exact ⟨_, seed, ctrl, w, List.getElem?_eq_getElem ha, hn, hr, ⟨h4, h5⟩, h6⟩

/-- The expansions of one level that lead to a given correction word are those that differ in the half on the path. -/
theorem idealWord_ncard (ha : level < alpha.length)
    (hv : ∃ y, NodeValue prims I.bits I.valueLen ctx nonce pub key b (alpha.take (level + 1)) (I.currentField level) y)
    {cw : CorrectionWord} (hcw : pub[level]? = some cw) (hl : cw.seedCw.length = 16) (hlow : lowBit cw.seedCw = false)
    {v : List (Fk (I.currentField level))} (hw : cw.wCw = ⟨_, v⟩) (hvl : v.length = I.valueLen)
    {beta : List (Fk (I.currentField level))} (hb : beta.length = I.valueLen) :
    {e : Expansion (I.currentField level) | e.Sized I.valueLen ∧
      IdealWord prims I ctx nonce b key alpha pub level beta e cw}.ncard = 2 ^ 127 := by
  obtain ⟨S, T0, T1, c, w, hS, hSl, hwl, h⟩ := idealWord_iff ha hv hcw
  obtain ⟨seedCw, ⟨c0, c1⟩, wCw⟩ := cw
  dsimp only at *
  subst hw
  generalize alpha[level] = bit at h
  have hX : (List.zipWith (· ^^^ ·) S seedCw).length = 16 := by simp [hS, hl]
  have hXl : lowBit (List.zipWith (· ^^^ ·) S seedCw) = false := lowBit_xor hSl hlow (by omega)
  have hX0 : List.zipWith (· ^^^ ·) S seedCw ≠ [] := by intro h; rw [h] at hX; simp at hX
  have lose : ∀ x : Bytes, x.length = 16 → ∀ t : Bool,
      (seedCw = List.zipWith (· ^^^ ·) S (clearBit x) ∧ lowBit x = t) ↔
      x = putBit t (List.zipWith (· ^^^ ·) S seedCw) := by
    intro x hx t
    constructor
    · rintro ⟨rfl, rfl⟩
      rw [xor_cancel (by rw [clearBit_length]; omega), putBit_self]
    · rintro rfl
      rw [clearBit_putBit, clearBit_of_lowBit hXl, xor_cancel (by omega)]
      exact ⟨rfl, lowBit_putBit _ hX0⟩
  have sol : ∀ (A B C D : Bool), A = ((B != C) != D) ↔ C = ((B != A) != D) := by decide
  set val := solveValue b c beta w v with hval
  have hvl' : val.length = I.valueLen := solveValue_length hb hwl hvl
  cases bit with
  | true =>
    have : {e : Expansion (I.currentField level) | e.Sized I.valueLen ∧
        IdealWord prims I ctx nonce b key alpha pub level beta e ⟨seedCw, (c0, c1), ⟨_, v⟩⟩} =
        (fun x => ⟨putBit ((T0 != c0) != !true) (List.zipWith (· ^^^ ·) S seedCw), x, val⟩) ''
          keepSet ((T1 != c1) != true) := by
      ext ⟨l, r, u⟩
      simp only [Set.mem_ofPred_eq, h, if_true, Prod.mk.injEq, Set.mem_image, Expansion.mk.injEq, Expansion.Sized, keepSet]
      constructor
      · rintro ⟨⟨l1, l2, l3⟩, e1, ⟨e2, e3⟩, e4⟩
        rw [sol] at e2 e3
        have := (lose l l1 _).1 ⟨e1, e2⟩
        simp only [Sigma.mk.injEq, heq_eq_eq, true_and] at e4
        exact ⟨r, ⟨l2, e3⟩, this.symm, rfl, ((solveValue_iff hb hwl hvl l3).1 e4).symm⟩
      · rintro ⟨x, ⟨l2, e3⟩, rfl, rfl, rfl⟩
        have l1 := (putBit_length ((T0 != c0) != !true) (List.zipWith (· ^^^ ·) S seedCw)).trans hX
        obtain ⟨e1, e2⟩ := (lose _ l1 _).2 rfl
        refine ⟨⟨l1, l2, hvl'⟩, e1, ⟨(sol _ _ _ _).2 e2, (sol _ _ _ _).2 e3⟩, ?_⟩
        rw [← (solveValue_iff hb hwl hvl hvl').2 rfl]
    rw [this, Set.ncard_image_of_injective _ (fun x y hxy => by simpa using hxy), keepSet_ncard]
  | false =>
    have : {e : Expansion (I.currentField level) | e.Sized I.valueLen ∧
        IdealWord prims I ctx nonce b key alpha pub level beta e ⟨seedCw, (c0, c1), ⟨_, v⟩⟩} =
        (fun x => ⟨x, putBit ((T1 != c1) != false) (List.zipWith (· ^^^ ·) S seedCw), val⟩) ''
          keepSet ((T0 != c0) != !false) := by
      ext ⟨l, r, u⟩
      simp only [Set.mem_ofPred_eq, h, Bool.false_eq_true, if_false, Prod.mk.injEq, Set.mem_image, Expansion.mk.injEq,
        Expansion.Sized, keepSet]
      constructor
      · rintro ⟨⟨l1, l2, l3⟩, e1, ⟨e2, e3⟩, e4⟩
        rw [sol] at e2 e3
        have := (lose r l2 _).1 ⟨e1, e3⟩
        simp only [Sigma.mk.injEq, heq_eq_eq, true_and] at e4
        exact ⟨l, ⟨l1, e2⟩, rfl, this.symm, ((solveValue_iff hb hwl hvl l3).1 e4).symm⟩
      · rintro ⟨x, ⟨l2, e3⟩, rfl, rfl, rfl⟩
        have l1 := (putBit_length ((T1 != c1) != false) (List.zipWith (· ^^^ ·) S seedCw)).trans hX
        obtain ⟨e1, e2⟩ := (lose _ l1 _).2 rfl
        refine ⟨⟨l2, l1, hvl'⟩, e1, ⟨(sol _ _ _ _).2 e3, (sol _ _ _ _).2 e2⟩, ?_⟩
        rw [← (solveValue_iff hb hwl hvl hvl').2 rfl]
    rw [this, Set.ncard_image_of_injective _ (fun x y hxy => by simpa using hxy), keepSet_ncard]

end

/-! ### All the levels -/

theorem ncard_pi {ι : Type} [Fintype ι] {α : ι → Type} (p : (i : ι) → α i → Prop) :
    {f : (i : ι) → α i | ∀ i, p i (f i)}.ncard = ∏ i, {x | p i x}.ncard := by
  rw [← Nat.card_coe_set_eq]
  rw [Nat.card_congr (show ↥{f : (i : ι) → α i | ∀ i, p i (f i)} ≃ ((i : ι) → ↥{x | p i x}) from
    Equiv.subtypePiEquivPi), Nat.card_pi]
  exact Finset.prod_congr rfl fun i _ => Nat.card_coe_set_eq _

theorem finite_sized (valueLen : ℕ) (κ : Kind) : {e : Expansion κ | e.Sized valueLen}.Finite := by
  have hF : {v : List (Fk κ) | v.length = valueLen}.Finite := List.finite_length_eq _ _
  have : {e : Expansion κ | e.Sized valueLen} ⊆ (fun p : Bytes × Bytes × List (Fk κ) => ⟨p.1, p.2.1, p.2.2⟩) ''
      ({x : Bytes | x.length = 16} ×ˢ {x : Bytes | x.length = 16} ×ˢ {v : List (Fk κ) | v.length = valueLen}) := by
    rintro ⟨l, r, v⟩ ⟨h1, h2, h3⟩
    exact ⟨(l, r, v), ⟨h1, h2, h3⟩, rfl⟩
  exact (((finite_bytes 16).prod ((finite_bytes 16).prod hF)).image _).subset this

/-! ### The ideal process is a function -/

section
variable {prims : Prims} {bits : ℕ} {ctx nonce : Bytes} {j : ℕ} {key : Bytes} {pub pub' : List CorrectionWord}

/-- A node depends on the correction words above it only. -/
theorem node_congr {p : List Bool} {seed : Bytes} {ctrl : Bool} (h : Node prims bits ctx nonce pub key j p seed ctrl)
    (hp : ∀ i < p.length, pub[i]? = pub'[i]?) : Node prims bits ctx nonce pub' key j p seed ctrl := by
  induction h with
  | root => exact .root
  | child p seed ctrl bit cw hn hcw ih =>
    refine .child p seed ctrl bit cw (ih fun i hi => hp i (by simp; omega)) ?_
    rw [← hp _ (by simp), hcw]

theorem childSeed_congr {level : ℕ} {seed : Bytes} {ctrl bit : Bool} {cw cw' : CorrectionWord}
    (h : cw.seedCw = cw'.seedCw) : childSeed prims bits ctx nonce level seed ctrl bit cw =
      childSeed prims bits ctx nonce level seed ctrl bit cw' := by
  unfold childSeed
  rw [h]

theorem childCtrl_congr {level : ℕ} {seed : Bytes} {ctrl bit : Bool} {cw cw' : CorrectionWord}
    (h : cw.ctrlCw = cw'.ctrlCw) : childCtrl prims bits ctx nonce level seed ctrl bit cw =
      childCtrl prims bits ctx nonce level seed ctrl bit cw' := by
  unfold childCtrl
  rw [h]

theorem idealWord_unique {I : Idpf} {alpha : List Bool} {level : ℕ} {beta : List (Fk (I.currentField level))}
    {e : Expansion (I.currentField level)} {cw cw' : CorrectionWord} (hp : ∀ i < level, pub[i]? = pub'[i]?)
    (h : IdealWord prims I ctx nonce j key alpha pub level beta e cw)
    (h' : IdealWord prims I ctx nonce j key alpha pub' level beta e cw') : cw = cw' := by
  obtain ⟨bit, seed, ctrl, w, h1, h2, ⟨l1, pos, h3⟩, ⟨h4, h5⟩, h6⟩ := h
  obtain ⟨bit', seed', ctrl', w', h1', h2', ⟨l1', pos', h3'⟩, ⟨h4', h5'⟩, h6'⟩ := h'
  rw [h1] at h1'
  cases h1'
  have := node_congr h2 (pub' := pub') fun i hi => hp i (by
    rw [List.length_take] at hi; omega)
  obtain ⟨rfl, rfl⟩ := C56_node_unique _ _ _ _ _ _ _ this h2'
  have e1 : cw.seedCw = cw'.seedCw := h4.trans h4'.symm
  have e2 : cw.ctrlCw = cw'.ctrlCw := h5.trans h5'.symm
  rw [childSeed_congr e1] at h3
  obtain ⟨rfl, -⟩ := Samples.unique h3 h3' (l1.trans l1'.symm)
  dsimp only at h6 h6'
  rw [childCtrl_congr e2, ← h6'] at h6
  obtain ⟨a, b, c⟩ := cw
  obtain ⟨a', b', c'⟩ := cw'
  simp only at e1 e2 h6
  rw [e1, e2, h6]

theorem idealWord_format {I : Idpf} {alpha : List Bool} {level : ℕ} {beta : List (Fk (I.currentField level))}
    {e : Expansion (I.currentField level)} {cw : CorrectionWord} (hb : beta.length = I.valueLen)
    (he : e.Sized I.valueLen) (h : IdealWord prims I ctx nonce j key alpha pub level beta e cw) :
    cw.seedCw.length = 16 ∧ lowBit cw.seedCw = false ∧
      ∃ v, cw.wCw = ⟨I.currentField level, v⟩ ∧ v.length = I.valueLen := by
  obtain ⟨bit, seed, ctrl, w, h1, h2, ⟨l1, -⟩, ⟨h4, h5⟩, h6⟩ := h
  obtain ⟨e1, e2, e3⟩ := he
  have l2 : (if bit then e.left else e.right).length = 16 := by cases bit <;> simp [e1, e2]
  refine ⟨?_, ?_, _, h6, ?_⟩
  · rw [h4]
    simp [clearBit_length, l2, bytesAt]
  · rw [h4]
    exact lowBit_xor (lowBit_clearBit _) (lowBit_clearBit _) (by simp [clearBit_length, l2, bytesAt])
  · have : ∀ (c : Bool) (d : List (Fk (I.currentField level))), (if c then d.map fun x => -x else d).length = d.length :=
      fun c d => by cases c <;> simp
    rw [this]
    split <;> simp [hb, l1, e3]

/-! ### The control bits of the two Aggregators -/

theorem childCtrl_ne {seed0 seed1 : Bytes} {level : ℕ} {ctrl0 ctrl1 bit : Bool} {cw : CorrectionWord}
    (hc : ctrl0 ≠ ctrl1)
    (h : cw.ctrlCw =
      ((lowBit (bytesAt (idpfStream prims bits level 0 seed0 ctx nonce) 0 16) !=
          lowBit (bytesAt (idpfStream prims bits level 0 seed1 ctx nonce) 0 16)) != !bit,
        (lowBit (bytesAt (idpfStream prims bits level 0 seed0 ctx nonce) 16 16) !=
          lowBit (bytesAt (idpfStream prims bits level 0 seed1 ctx nonce) 16 16)) != bit)) :
    childCtrl prims bits ctx nonce level seed0 ctrl0 bit cw =
      !childCtrl prims bits ctx nonce level seed1 ctrl1 bit cw := by
  unfold childCtrl
  rw [h]
  dsimp only
  clear h
  cases bit <;> simp only [Bool.false_eq_true, if_false, if_true]
  · generalize lowBit (bytesAt (idpfStream prims bits level 0 seed0 ctx nonce) 0 16) = a
    generalize lowBit (bytesAt (idpfStream prims bits level 0 seed1 ctx nonce) 0 16) = a'
    revert ctrl0 ctrl1 a a'
    decide
  · generalize lowBit (bytesAt (idpfStream prims bits level 0 seed0 ctx nonce) 16 16) = a
    generalize lowBit (bytesAt (idpfStream prims bits level 0 seed1 ctx nonce) 16 16) = a'
    revert ctrl0 ctrl1 a a'
    decide

end

end Vdaf
