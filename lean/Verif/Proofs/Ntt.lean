import Verif.Proofs.Roots
import Verif.Proofs.Poly
import Mathlib.Algebra.Field.GeomSum

/-! Correctness of `ntt` and `inv_ntt`. -/

namespace Vdaf
open Polynomial Finset

section tab
variable {α : Type}

/-- A list given by a function on indices. -/
def tab (n : Nat) (f : Nat → α) : List α := (List.range n).map f

@[simp] theorem tab_length (n : Nat) (f : Nat → α) : (tab n f).length = n := by simp [tab]
theorem tab_getElem (n : Nat) (f : Nat → α) (i : Nat) (h : i < (tab n f).length) :
    (tab n f)[i] = f i := by simp [tab]
theorem getI_tab {n : Nat} {f : Nat → α} {i : Nat} (h : i < n) : getI (tab n f) i = .ok (f i) := by
  rw [getI_of_lt (by simpa using h), tab_getElem]
theorem tab_congr {n : Nat} {f g : Nat → α} (h : ∀ i < n, f i = g i) : tab n f = tab n g := by
  unfold tab; apply List.map_congr_left; intro i hi; exact h i (by simpa using hi)
theorem tab_inj {n : Nat} {f g : Nat → α} (h : tab n f = tab n g) : ∀ i < n, f i = g i := by
  intro i hi
  have h1 := tab_getElem n f i (by simpa using hi)
  have h2 := tab_getElem n g i (by simpa using hi)
  rw [← h1, ← h2]; congr 1
theorem setI_tab {n : Nat} {f : Nat → α} {i : Nat} (h : i < n) (v : α) :
    setI (tab n f) i v = .ok (tab n (Function.update f i v)) := by
  rw [setI_of_lt (by simpa using h)]
  congr 1
  apply List.ext_getElem
  · simp
  · intro j h1 h2
    rw [List.getElem_set, tab_getElem, tab_getElem]
    by_cases hij : i = j
    · subst hij; simp
    · rw [if_neg hij, Function.update_of_ne (Ne.symm hij)]
theorem tab_eq_of_length [Inhabited α] (l : List α) : ∃ f, l = tab l.length f := by
  refine ⟨fun i => l.getD i default, ?_⟩
  apply List.ext_getElem
  · simp
  · intro i h1 h2; rw [tab_getElem]; simp [h1]
theorem tab_map {β : Type} (n : Nat) (f : Nat → α) (g : α → β) :
    (tab n f).map g = tab n (fun i => g (f i)) := by simp [tab]
end tab

theorem eq_tab_coef {F : Type} [Field F] (l : List F) : l = tab l.length (coef l) := by
  apply List.ext_getElem
  · simp
  · intro i h1 h2; rw [tab_getElem, coef_of_lt h1]

theorem evals_eq_tab {F : Type} [Field F] (P : F[X]) (w : F) (n : Nat) :
    Spec.evals P w n = tab n (fun i => P.eval (w ^ i)) := rfl

section
variable {F : Type} [NttField F]

theorem butterfly_tab {n : Nat} {f : Nat → F} {w : F} {x y : Nat} (hx : x + y < n) (hy : 0 < y) :
    butterfly w x y (tab n f) = .ok (tab n (Function.update (Function.update f x
      (f x + w * f (x + y))) (x + y) (f x - w * f (x + y)))) := by
  unfold butterfly
  rw [getI_tab (by omega)]
  simp only [Except.ok_bind']
  rw [getI_tab hx]
  simp only [Except.ok_bind']
  rw [setI_tab (by omega)]
  simp only [Except.ok_bind']
  rw [setI_tab hx]

/-- Values after one full layer, `y = 2^(k-1)`, `w` the initial twiddle, `r` the ratio. -/
def layerFun (y : Nat) (w r : F) (f : Nat → F) (z : Nat) : F :=
  if z % (2 * y) < y then f z + w * r ^ (z % y) * f (z + y)
  else f (z - y) - w * r ^ (z % y) * f z

theorem idx_cases {y z i j : Nat} (hi : z % y = i) (hj : z / (2 * y) = j) :
    z = j * (2 * y) + i ∨ z = j * (2 * y) + i + y := by
  have h1 := Nat.div_add_mod z y
  have h2 : z / y / 2 = j := by rw [Nat.div_div_eq_div_mul, Nat.mul_comm y 2]; exact hj
  rw [hi] at h1
  have h3 : z / y = 2 * j ∨ z / y = 2 * j + 1 := by omega
  rcases h3 with h | h
  · left; rw [h] at h1; rw [← h1]; ring
  · right; rw [h] at h1; rw [← h1]; ring

theorem nttLayer_tab {L k : Nat} (hk : 1 ≤ k) (hkL : k ≤ L) (setS : Bool) (f : Nat → F) :
    nttLayer (2 ^ L) setS (tab (2 ^ L) f) k =
      .ok (tab (2 ^ L) (layerFun (2 ^ (k - 1))
        (if setS then nthRoot F (k + 1) else 1) (nthRoot F k) f)) := by
  set y := 2 ^ (k - 1) with hy
  have hypos : 0 < y := by positivity
  have h2k : 2 ^ k = 2 * y := by rw [hy, ← pow_succ']; congr 1; omega
  have hn : 2 ^ L = (2 ^ L >>> k) * (2 * y) := by
    rw [Nat.shiftRight_eq_div_pow, Nat.pow_div hkL (by norm_num), ← h2k, ← pow_add]
    congr 1; omega
  set m := 2 ^ L >>> k with hm
  unfold nttLayer
  dsimp only
  rw [Nat.one_shiftLeft, ← hy, ← hm]
  generalize (if setS = true then nthRoot F (k + 1) else 1 : F) = w
  generalize nthRoot F k = r
  set n := 2 ^ L
  -- one inner loop
  have inner : ∀ i, i < y → 
      forFold (List.range m) (tab n (fun z => if z % y < i then layerFun y w r f z else f z))
        (fun q j => butterfly (w * r ^ i) ((j <<< k) + i) y q) =
      .ok (tab n (fun z => if z % y < i + 1 then layerFun y w r f z else f z)) := by
    intro i hi
    obtain ⟨b, hb, hP⟩ := forFold_range m
      (tab n (fun z => if z % y < i then layerFun y w r f z else f z))
      (fun q j => butterfly (w * r ^ i) ((j <<< k) + i) y q)
      (fun j q => q = tab n (fun z => if z % y < i ∨ (z % y = i ∧ z / (2 * y) < j)
        then layerFun y w r f z else f z))
      (by simp)
      (by
        intro j hj q hq
        subst hq
        have hx : j <<< k + i = j * (2 * y) + i := by rw [Nat.shiftLeft_eq, h2k]
        rw [hx]
        set x := j * (2 * y) + i with hxdef
        have hjm : (j + 1) * (2 * y) ≤ n := by
          rw [hn]; exact Nat.mul_le_mul_right _ hj
        have hxn : x + y < n := by
          have : (j + 1) * (2 * y) = j * (2 * y) + 2 * y := by ring
          omega
        have hxmod : x % y = i := by
          rw [hxdef, show j * (2 * y) + i = i + y * (2 * j) by ring, Nat.add_mul_mod_self_left,
            Nat.mod_eq_of_lt hi]
        have hxymod : (x + y) % y = i := by rw [Nat.add_mod_right, hxmod]
        have hxdiv : x / (2 * y) = j := by
          rw [hxdef, show j * (2 * y) + i = i + (2 * y) * j by ring,
            Nat.add_mul_div_left _ _ (by omega), Nat.div_eq_of_lt (by omega), Nat.zero_add]
        have hxydiv : (x + y) / (2 * y) = j := by
          rw [hxdef, show j * (2 * y) + i + y = (i + y) + (2 * y) * j by ring,
            Nat.add_mul_div_left _ _ (by omega), Nat.div_eq_of_lt (by omega), Nat.zero_add]
        have hxm2 : x % (2 * y) = i := by
          rw [hxdef, show j * (2 * y) + i = i + (2 * y) * j by ring, Nat.add_mul_mod_self_left,
            Nat.mod_eq_of_lt (by omega)]
        have hxym2 : (x + y) % (2 * y) = i + y := by
          rw [hxdef, show j * (2 * y) + i + y = (i + y) + (2 * y) * j by ring,
            Nat.add_mul_mod_self_left, Nat.mod_eq_of_lt (by omega)]
        refine ⟨_, butterfly_tab hxn hypos, ?_⟩
        apply tab_congr
        intro z hz
        have e1 : (if x % y < i ∨ x % y = i ∧ x / (2 * y) < j then layerFun y w r f x else f x)
            = f x := by rw [if_neg]; rw [hxmod, hxdiv]; omega
        have e2 : (if (x + y) % y < i ∨ (x + y) % y = i ∧ (x + y) / (2 * y) < j
            then layerFun y w r f (x + y) else f (x + y))
            = f (x + y) := by rw [if_neg]; rw [hxymod, hxydiv]; omega
        rw [e1, e2]
        by_cases hz1 : z = x + y
        · subst hz1
          rw [Function.update_self, if_pos (by rw [hxymod, hxydiv]; omega)]
          unfold layerFun
          rw [hxym2, hxymod, if_neg (by omega), Nat.add_sub_cancel]
        · rw [Function.update_of_ne hz1]
          by_cases hz2 : z = x
          · subst hz2
            rw [Function.update_self, if_pos (by rw [hxmod, hxdiv]; omega)]
            unfold layerFun
            rw [hxm2, hxmod, if_pos hi]
          · rw [Function.update_of_ne hz2]
            apply if_congr _ rfl rfl
            constructor
            · rintro (h | ⟨h1, h2⟩)
              · left; exact h
              · right; exact ⟨h1, by omega⟩
            · rintro (h | ⟨h1, h2⟩)
              · left; exact h
              · by_cases h3 : z / (2 * y) < j
                · right; exact ⟨h1, h3⟩
                · have h4 : z / (2 * y) = j := by omega
                  rcases idx_cases h1 h4 with h | h
                  · exact absurd h hz2
                  · exact absurd h hz1)
    rw [hb, hP]
    congr 1
    apply tab_congr
    intro z hz
    have : z / (2 * y) < m := by
      rw [Nat.div_lt_iff_lt_mul (by omega), ← hn]; exact hz
    apply if_congr _ rfl rfl
    constructor
    · rintro (h | ⟨h1, h2⟩) <;> omega
    · intro h
      by_cases h1 : z % y < i
      · left; exact h1
      · right; exact ⟨by omega, this⟩
  obtain ⟨b, hb, hP⟩ := forFold_range y (tab n f, w)
    (fun (qw : List F × F) i => do
      let q ← forFold (List.range m) qw.1 fun q j => butterfly qw.2 ((j <<< k) + i) y q
      return (q, qw.2 * r))
    (fun i qw => qw = (tab n (fun z => if z % y < i then layerFun y w r f z else f z), w * r ^ i))
    (by simp)
    (by
      intro i hi qw hqw
      subst hqw
      simp only
      rw [inner i hi]
      exact ⟨_, rfl, by rw [pow_succ, mul_assoc]⟩)
  have hb' : forFold (List.range y) (tab n f, w) (fun (x : List F × F) i => match x with
      | (q, w) => do
      let q ← forFold (List.range m) q fun q j => butterfly w ((j <<< k) + i) y q
      return (q, w * r)) = Except.ok b := hb
  rw [hb', hP]
  simp only [Except.ok_bind', Except.pure_eq']
  congr 1
  apply tab_congr
  intro z hz
  rw [if_pos (Nat.mod_lt _ hypos)]

theorem sum_range_two_mul {M : Type} [AddCommMonoid M] (n : Nat) (f : Nat → M) :
    ∑ m ∈ range (2 * n), f m = ∑ m ∈ range n, (f (2 * m) + f (2 * m + 1)) := by
  induction n with
  | zero => simp
  | succ n ih =>
    rw [Nat.mul_succ, sum_range_succ, sum_range_succ, ih, sum_range_succ, add_assoc]

/-- The shift used by `ntt` at layer `k`. -/
def nttShift (F : Type) [NttField F] (setS : Bool) (k : Nat) : F :=
  if setS then nthRoot F (k + 1) else 1

/-- Values after layer `k`. -/
def stageFun (L : Nat) (setS : Bool) (c : Nat → F) (k z : Nat) : F :=
  ∑ m ∈ range (2 ^ k), c (m * 2 ^ (L - k) + brev (L - k) (z / 2 ^ k)) *
    (nttShift F setS k * nthRoot F k ^ (z % 2 ^ k)) ^ m

theorem nttShift_sq {setS : Bool} {k : Nat}
    (h : k + 1 + (if setS then 1 else 0) ≤ NttField.logOrder F) :
    nttShift F setS (k + 1) ^ 2 = nttShift F setS k := by
  unfold nttShift
  cases setS with
  | false => simp
  | true => simp only [if_true] at h ⊢; exact nthRoot_succ_sq (by omega)

theorem layer_stage {L k : Nat} (hkL : k + 1 ≤ L) (setS : Bool) (c : Nat → F)
    (h : k + 1 + (if setS then 1 else 0) ≤ NttField.logOrder F) (z : Nat) :
    layerFun (2 ^ k) (nttShift F setS (k + 1)) (nthRoot F (k + 1)) (stageFun L setS c k) z =
      stageFun L setS c (k + 1) z := by
  have hk1 : k + 1 ≤ NttField.logOrder F := by split at h <;> omega
  set y := 2 ^ k with hy
  have hypos : 0 < y := by positivity
  have h2k : 2 ^ (k + 1) = 2 * y := by rw [hy, pow_succ']
  set j := z / (2 * y) with hj
  set i := z % y with hi
  have hiy : i < y := Nat.mod_lt _ hypos
  set X : F := nttShift F setS (k + 1) * nthRoot F (k + 1) ^ i with hX
  set b := brev (L - (k + 1)) j with hb
  have hLk : L - k = (L - (k + 1)) + 1 := by omega
  have be : brev (L - k) (2 * j) = b := by
    rw [hLk, brev, Nat.mul_mod_right, Nat.mul_div_cancel_left _ (by norm_num)]; simp [hb]
  have bo : brev (L - k) (2 * j + 1) = 2 ^ (L - (k + 1)) + b := by
    rw [hLk, brev]
    have h1 : (2 * j + 1) % 2 = 1 := by omega
    have h2 : (2 * j + 1) / 2 = j := by omega
    rw [h1, h2]; simp [hb]
  have hXsq : nttShift F setS k * nthRoot F k ^ i = X ^ 2 := by
    rw [hX, mul_pow, nttShift_sq h, ← pow_mul, Nat.mul_comm, pow_mul, nthRoot_succ_sq hk1]
  set E : F := ∑ m ∈ range y, c (m * 2 ^ (L - k) + b) * (X ^ 2) ^ m with hE
  set O : F := ∑ m ∈ range y, c (m * 2 ^ (L - k) + (2 ^ (L - (k + 1)) + b)) * (X ^ 2) ^ m with hO
  have split : ∀ Y : F, Y ^ 2 = X ^ 2 →
      ∑ m ∈ range (2 ^ (k + 1)), c (m * 2 ^ (L - (k + 1)) + b) * Y ^ m = E + Y * O := by
    intro Y hY
    rw [h2k, sum_range_two_mul, sum_add_distrib, hE, hO, Finset.mul_sum]
    congr 1
    · apply Finset.sum_congr rfl
      intro m _
      rw [pow_mul, hY, hLk, pow_succ 2 (L - (k + 1)),
        show 2 * m * 2 ^ (L - (k + 1)) + b = m * (2 ^ (L - (k + 1)) * 2) + b by ring]
    · apply Finset.sum_congr rfl
      intro m _
      rw [pow_succ Y, pow_mul, hY, hLk, pow_succ 2 (L - (k + 1))]
      rw [show (2 * m + 1) * 2 ^ (L - (k + 1)) + b =
        m * (2 ^ (L - (k + 1)) * 2) + (2 ^ (L - (k + 1)) + b) by ring]
      ring
  have hw : nthRoot F (k + 1) ^ y = -1 := nthRoot_half hk1
  rcases idx_cases (y := y) (z := z) rfl rfl with hz | hz
  · -- lower half of the block
    rw [← hi, ← hj] at hz
    have hm : z % (2 * y) = i := by
      rw [hz, show j * (2 * y) + i = i + (2 * y) * j by ring, Nat.add_mul_mod_self_left,
        Nat.mod_eq_of_lt (by omega)]
    have d1 : z / y = 2 * j := by
      rw [hz, show j * (2 * y) + i = i + y * (2 * j) by ring, Nat.add_mul_div_left _ _ hypos,
        Nat.div_eq_of_lt hiy, Nat.zero_add]
    have d2 : (z + y) / y = 2 * j + 1 := by rw [Nat.add_div_right _ hypos, d1]
    have m2 : (z + y) % y = i := by rw [Nat.add_mod_right]
    unfold layerFun
    rw [hm, if_pos hiy, ← hi, ← hX]
    unfold stageFun
    rw [← hy, d1, d2, m2, ← hi, be, bo, hXsq, h2k, ← hj, hm, ← hX, ← h2k, split X rfl]
  · rw [← hi, ← hj] at hz
    have hm : z % (2 * y) = i + y := by
      rw [hz, show j * (2 * y) + i + y = (i + y) + (2 * y) * j by ring, Nat.add_mul_mod_self_left,
        Nat.mod_eq_of_lt (by omega)]
    have d1 : z / y = 2 * j + 1 := by
      rw [hz, show j * (2 * y) + i + y = i + y * (2 * j + 1) by ring,
        Nat.add_mul_div_left _ _ hypos, Nat.div_eq_of_lt hiy, Nat.zero_add]
    have hzy : z - y = j * (2 * y) + i := by omega
    have d2 : (z - y) / y = 2 * j := by
      rw [hzy, show j * (2 * y) + i = i + y * (2 * j) by ring, Nat.add_mul_div_left _ _ hypos,
        Nat.div_eq_of_lt hiy, Nat.zero_add]
    have m2 : (z - y) % y = i := by
      rw [hzy, show j * (2 * y) + i = i + y * (2 * j) by ring, Nat.add_mul_mod_self_left,
        Nat.mod_eq_of_lt hiy]
    unfold layerFun
    rw [hm, if_neg (by omega), ← hi, ← hX]
    unfold stageFun
    rw [← hy, d1, d2, m2, ← hi, be, bo, hXsq, h2k, ← hj, hm, pow_add, hw, ← h2k]
    have : nttShift F setS (k + 1) * (nthRoot F (k + 1) ^ i * -1) = -X := by rw [hX]; ring
    rw [this, split (-X) (by ring)]
    ring

theorem ntt_tab {L : Nat} (setS : Bool) (p : List F) 
    (h : L + (if setS then 1 else 0) ≤ NttField.logOrder F) :
    ntt p (2 ^ L) setS = .ok (tab (2 ^ L) (fun i =>
      ∑ m ∈ range (2 ^ L), coef p m * (nttShift F setS L * nthRoot F L ^ i) ^ m)) := by
  unfold ntt
  rw [assertPowerOf2_pow]
  simp only [Except.ok_bind']
  set n := 2 ^ L with hn
  set p' := p ++ List.replicate (n - p.length) (0 : F) with hp'
  have hp'len : n ≤ p'.length := by rw [hp']; simp; omega
  have hcoef : ∀ i, coef p' i = coef p i := by
    intro i
    unfold coef
    rw [hp']
    simp only [List.getD_eq_getElem?_getD]
    by_cases hi : i < p.length
    · simp [List.getElem?_append_left hi]
    · rw [List.getElem?_append_right (by omega),
        List.getElem?_eq_none (by omega : p.length ≤ i)]
      by_cases h2 : i - p.length < n - p.length
      · simp [h2]
      · simp [h2]
  rw [mapRes_pure _ (fun i => coef p (brev L i))]
  swap
  · intro i hi
    have hi' : i < 2 ^ L := by simpa using hi
    rw [bitrev_eq hi']
    simp only [Except.ok_bind']
    have : brev L i < p'.length := lt_of_lt_of_le (brev_lt L i) hp'len
    rw [getI_of_lt this, ← coef_of_lt this, hcoef]
  simp only [Except.ok_bind']
  obtain ⟨b, hb, hP⟩ := forFold_range' 1 L (List.map (fun i => coef p (brev L i)) (List.range n))
    (nttLayer n setS) (fun k q => q = tab n (stageFun L setS (coef p) (k - 1)))
    (by
      change tab n _ = _
      apply tab_congr
      intro i hi
      simp [stageFun])
    (by
      intro k hk1 hk2 q hq
      subst hq
      have h3 : k ≤ L := by omega
      refine ⟨_, nttLayer_tab hk1 h3 setS _, ?_⟩
      apply tab_congr
      intro z hz
      obtain ⟨k, rfl⟩ : ∃ k', k = k' + 1 := ⟨k - 1, by omega⟩
      simp only [Nat.add_sub_cancel]
      exact layer_stage h3 setS _ (by split at h <;> simp_all <;> omega) z)
  rw [hb, hP]
  congr 1
  apply tab_congr
  intro z hz
  have : 1 + L - 1 = L := by omega
  rw [this]
  unfold stageFun
  apply Finset.sum_congr rfl
  intro m hm
  rw [Nat.sub_self, pow_zero, Nat.mul_one, brev, Nat.add_zero, Nat.mod_eq_of_lt hz]

/-- `ntt` computes evaluations. -/
theorem ntt_eq {L : Nat} (setS : Bool) (p : List F) (hp : p.length ≤ 2 ^ L)
    (h : L + (if setS then 1 else 0) ≤ NttField.logOrder F) :
    ntt p (2 ^ L) setS = .ok (tab (2 ^ L) (fun i =>
      (Spec.poly p).eval (nttShift F setS L * nthRoot F L ^ i))) := by
  rw [ntt_tab setS p h]
  congr 1
  apply tab_congr
  intro i _
  rw [poly_eval p _ hp]

theorem ntt_evals {L : Nat} (p : List F) (hp : p.length ≤ 2 ^ L)
    (h : L ≤ NttField.logOrder F) :
    ntt p (2 ^ L) = .ok (Spec.evals (Spec.poly p) (nthRoot F L) (2 ^ L)) := by
  rw [ntt_eq false p hp (by simpa using h)]
  congr 1
  apply tab_congr
  intro i _
  simp [nttShift]

/-- Orthogonality of the powers of a root of unity. -/
theorem sum_root_pow {L d : Nat} (hL : L ≤ NttField.logOrder F) :
    ∑ m ∈ range (2 ^ L), (nthRoot F L ^ d) ^ m =
      if 2 ^ L ∣ d then ((2 ^ L : Nat) : F) else 0 := by
  split
  · rename_i hd
    obtain ⟨e, rfl⟩ := hd
    rw [pow_mul, nthRoot_pow_eq_one hL]
    simp
  · rename_i hd
    have hne : nthRoot F L ^ d ≠ 1 := by
      intro h1
      apply hd
      rw [← nthRoot_order (F := F) hL]
      exact orderOf_dvd_of_pow_eq_one h1
    rw [geom_sum_eq hne, ← pow_mul, Nat.mul_comm, pow_mul, nthRoot_pow_eq_one hL]
    simp

/-- Value of `inv_ntt`. -/
theorem invNtt_tab {L : Nat} (v : List F) (hL : L ≤ NttField.logOrder F) :
    ∃ q : List F, invNtt v (2 ^ L) = .ok q ∧ q.length = 2 ^ L ∧
      ∀ j < 2 ^ L, coef q j = (((2 ^ L : Nat) : F))⁻¹ *
        ∑ m ∈ range (2 ^ L), coef v m * (nthRoot F L ^ (2 ^ L - j)) ^ m := by
  set n := 2 ^ L with hn
  have hnpos : 0 < n := by positivity
  set f : Nat → F := fun i => ∑ m ∈ range n, coef v m * (nthRoot F L ^ i) ^ m with hf
  have hntt : ntt v n = .ok (tab n f) := by
    rw [hn, ntt_tab false v (by simpa using hL)]
    congr 1
    apply tab_congr
    intro i _
    simp [nttShift, hf, hn]
  have hcons : tab n f = f 0 :: (List.range (n - 1)).map (fun i => f (i + 1)) := by
    unfold tab
    obtain ⟨m, hm⟩ : ∃ m, n = m + 1 := ⟨n - 1, by omega⟩
    rw [hm, List.range_succ_eq_map]
    simp [Function.comp_def]
  set t := (List.range (n - 1)).map (fun i => f (i + 1)) with ht
  have htl : t.length = n - 1 := by simp [ht]
  have hrev : (t ++ [f 0]).reverse = tab n (fun j => f (n - j)) := by
    apply List.ext_getElem
    · simp [htl]; omega
    · intro j h1 h2
      have hj : j < n := by simpa using h2
      rw [tab_getElem]
      rw [List.getElem_reverse]
      simp only [List.length_append, htl, List.length_singleton]
      by_cases hj0 : j = 0
      · subst hj0
        rw [List.getElem_append_right (by omega)]
        simp only [List.getElem_singleton]
        rw [Nat.sub_zero, hf]
        simp only
        apply Finset.sum_congr rfl
        intro m _
        rw [hn, nthRoot_pow_eq_one hL, pow_zero]
      · rw [List.getElem_append_left (by omega)]
        simp only [ht, List.getElem_map, List.getElem_range]
        congr 1; omega
  refine ⟨tab n (fun j => f (n - j) * ((n : F))⁻¹), ?_, by simp, ?_⟩
  · unfold invNtt
    rw [hntt]
    simp only [Except.ok_bind']
    rw [hcons]
    simp only
    rw [ofInt_nat (by rw [hn]; exact two_pow_lt_modulus hL)]
    simp only [Except.ok_bind']
    rw [forFold_update_all (t ++ [f 0]).reverse (fun u => u * ((n : F))⁻¹), hrev, tab_map]
  · intro j hj
    rw [coef_of_lt (by simpa using hj), tab_getElem, mul_comm]

/-- `inv_ntt` of the evaluations of a polynomial of degree `< n` gives its coefficients. -/
theorem invNtt_evals {L : Nat} (P : F[X]) (hP : P.degree < 2 ^ L)
    (hL : L ≤ NttField.logOrder F) :
    ∃ q : List F, invNtt (Spec.evals P (nthRoot F L) (2 ^ L)) (2 ^ L) = .ok q ∧
      q.length = 2 ^ L ∧ Spec.poly q = P := by
  obtain ⟨q, hq, hlen, hcoef⟩ := invNtt_tab (Spec.evals P (nthRoot F L) (2 ^ L)) hL
  refine ⟨q, hq, hlen, ?_⟩
  set n := 2 ^ L with hn
  have hnpos : 0 < n := by positivity
  have hP' : P.degree < (n : ℕ) := by rw [hn]; exact_mod_cast hP
  ext j
  rw [poly_coeff]
  by_cases hj : j < n
  · rw [hcoef j hj]
    have hval : ∀ m ∈ range n, coef (Spec.evals P (nthRoot F L) n) m *
        (nthRoot F L ^ (n - j)) ^ m =
        ∑ i ∈ range n, P.coeff i * (nthRoot F L ^ (i + (n - j))) ^ m := by
      intro m hm
      rw [coef_of_lt (by rw [evals_length]; simpa using hm), evals_getElem,
        Polynomial.eval_eq_sum_range' (n := n)]
      · rw [Finset.sum_mul]
        apply Finset.sum_congr rfl
        intro i _
        rw [pow_add, mul_pow, ← pow_mul (nthRoot F L) m i, Nat.mul_comm m i, pow_mul]
        ring
      · by_cases h0 : P = 0
        · subst h0; simpa using hnpos
        · exact (natDegree_lt_iff_degree_lt h0).2 hP'
    rw [Finset.sum_congr rfl hval, Finset.sum_comm]
    have : ∀ i ∈ range n, ∑ m ∈ range n, P.coeff i * (nthRoot F L ^ (i + (n - j))) ^ m =
        if i = j then P.coeff i * (n : F) else 0 := by
      intro i hi
      rw [← Finset.mul_sum, hn, sum_root_pow hL, ← hn]
      have hi' : i < n := by simpa using hi
      by_cases hij : i = j
      · subst hij
        rw [if_pos, if_pos rfl]
        have : i + (n - i) = n := by omega
        rw [this]
      · rw [if_neg, if_neg hij, mul_zero]
        rintro ⟨c, hc⟩
        have h1 : i + (n - j) < 2 * n := by omega
        have h2 : 0 < i + (n - j) := by omega
        rw [hc] at h1 h2
        have hc1 : c < 2 := by
          by_contra hc2
          have : n * 2 ≤ n * c := Nat.mul_le_mul_left n (by omega)
          omega
        have hc0 : 0 < c := Nat.pos_of_mul_pos_left h2
        have : c = 1 := by omega
        subst this
        omega
    rw [Finset.sum_congr rfl this, Finset.sum_ite_eq', if_pos (by simpa using hj), mul_comm,
      mul_assoc, mul_inv_cancel₀ (by rw [hn]; exact two_pow_ne_zero' hL), mul_one]
  · rw [coef_of_le (by omega)]
    symm
    exact coeff_eq_zero_of_degree_lt (lt_of_lt_of_le hP' (by exact_mod_cast (Nat.not_lt.1 hj)))

end
end Vdaf
