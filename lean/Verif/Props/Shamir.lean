import Verif.Proofs.ShamirFlp
import Verif.Proofs.Circuits
import Verif.Props.Flp

/-!
# Properties C48, C51, C52: Shamir secret sharing and its composition with the FLP

`rand i k` is the `k`-th random field element drawn for coordinate `i`.  `mapRes (getI shares) idx = .ok sel` says
that `sel` are the shares with the indices `idx`.
-/

namespace Vdaf
open Finset Shamir

section
variable {F : Type} [PyField F]

/-- C48: share `j` of `meas` consists of the values at `j + 1` of polynomials of degree less than the threshold, the
constant coefficients of which are the coordinates of `meas`. -/
theorem C48_shares (meas : List F) (t num : ℕ) (rand : ℕ → ℕ → F) (hnum : num < PyField.modulus F) :
    ∃ shares, shamirShard meas t num rand = .ok shares ∧ shares.length = num ∧
      ∀ j (hj : j < shares.length), shares[j].length = meas.length ∧
        ∀ i (hi : i < meas.length) (hi' : i < shares[j].length),
          shares[j][i] = meas[i] + ∑ k ∈ range (t - 1), rand i k * ((j + 1 : ℕ) : F) ^ (k + 1) := by
  refine ⟨_, shard_eq meas t num rand hnum, by simp, fun j hj => ⟨by simp [tab_getElem], fun i hi hi' => ?_⟩⟩
  simp only [tab_getElem]
  rw [cpoly_eval_sum, coef_of_lt hi]
  rfl

/-- C48: what `shamir_unshard` returns on at least `t` distinct shares: the shared vector, except that with two or more
shares it raises `IndexError` if a coordinate is zero and all its random coefficients are too. -/
theorem C48_unshard_exact (meas : List F) (t num : ℕ) (rand : ℕ → ℕ → F) (hnum : num < PyField.modulus F)
    (ht : 1 ≤ t) (shares sel : List (List F)) (hshard : shamirShard meas t num rand = .ok shares)
    (idx : List ℕ) (hnd : idx.Nodup) (hlt : ∀ j ∈ idx, j < num) (htl : t ≤ idx.length)
    (hsel : mapRes (getI shares) idx = .ok sel) :
    ((2 ≤ idx.length ∧ ∃ i, meas[i]? = some 0 ∧ ∀ k < t - 1, rand i k = 0) →
      shamirUnshard (idx.map fun j : ℕ => (j : ℤ)) sel = .error .index) ∧
    (¬ (2 ≤ idx.length ∧ ∃ i, meas[i]? = some 0 ∧ ∀ k < t - 1, rand i k = 0) →
      shamirUnshard (idx.map fun j : ℕ => (j : ℤ)) sel = .ok meas) := by
  rw [shard_eq meas t num rand hnum] at hshard
  obtain rfl := Except.ok.inj hshard
  rw [pick hlt] at hsel
  obtain rfl := Except.ok.inj hsel
  rw [unshard_shard meas t num rand hnum ht idx hnd hlt htl]
  have : (∃ i < meas.length, coef meas i = 0 ∧ ∀ k < t - 1, rand i k = 0) ↔
      ∃ i, meas[i]? = some 0 ∧ ∀ k < t - 1, rand i k = 0 := by
    refine exists_congr fun i => ?_
    constructor
    · rintro ⟨hi, h0, h⟩
      exact ⟨by rw [List.getElem?_eq_getElem hi, ← coef_of_lt hi, h0], h⟩
    · rintro ⟨h0, h⟩
      obtain ⟨hi, h0⟩ := List.getElem?_eq_some_iff.1 h0
      exact ⟨hi, by rw [coef_of_lt hi, h0], h⟩
  exact ⟨fun h => if_pos ⟨h.1, this.2 h.2⟩, fun h => if_neg fun h' => h ⟨h'.1, this.1 h'.2⟩⟩

/-- C48, partial: reconstruction.  Missing: vectors with a zero coordinate of which all the random coefficients are
zero, for which `shamir_unshard` raises (`C48_unshard_counterexample`). -/
theorem C48_unshard_partial (meas : List F) (t num : ℕ) (rand : ℕ → ℕ → F) (hnum : num < PyField.modulus F)
    (ht : 1 ≤ t) (shares sel : List (List F)) (hshard : shamirShard meas t num rand = .ok shares)
    (idx : List ℕ) (hnd : idx.Nodup) (hlt : ∀ j ∈ idx, j < num) (htl : t ≤ idx.length)
    (hsel : mapRes (getI shares) idx = .ok sel)
    (hnz : ∀ i, meas[i]? = some 0 → ∃ k < t - 1, rand i k ≠ 0) :
    shamirUnshard (idx.map fun j : ℕ => (j : ℤ)) sel = .ok meas := by
  refine (C48_unshard_exact meas t num rand hnum ht shares sel hshard idx hnd hlt htl hsel).2 ?_
  rintro ⟨-, i, h0, h⟩
  obtain ⟨k, hk, hne⟩ := hnz i h0
  exact hne (h k hk)

example : (do
    let shares ← shamirShard [(5 : Field64), 0] 2 3 fun i k => (i + k + 7 : ℕ)
    let sel ← mapRes (getI shares) [2, 0]
    shamirUnshard [2, 0] sel) = .ok [5, 0] := by decide +kernel

/-- C48 fails as stated: reconstruction raises `IndexError` although there are enough distinct shares. -/
theorem C48_unshard_counterexample : (do
    let shares ← shamirShard [(5 : Field64), 0] 2 3 fun i _ => if i = 0 then 1 else 0
    let sel ← mapRes (getI shares) [2, 0]
    shamirUnshard [2, 0] sel) = .error .index := by decide +kernel

/-- C48: the coordinatewise sums of the shares of two vectors are the shares of their sum, with the sums of the random
coefficients. -/
theorem C48_add (a b c : List F) (t num : ℕ) (ra rb : ℕ → ℕ → F) (hnum : num < PyField.modulus F)
    (hc : vecAdd a b = .ok c) (as bs cs : List (List F)) (has : shamirShard a t num ra = .ok as)
    (hbs : shamirShard b t num rb = .ok bs)
    (hcs : shamirShard c t num (fun i k => ra i k + rb i k) = .ok cs) (j : ℕ) (ha : j < as.length)
    (hb : j < bs.length) (hc' : j < cs.length) : vecAdd as[j] bs[j] = .ok cs[j] := by
  rw [shard_eq _ _ _ _ hnum] at has hbs hcs
  obtain rfl := Except.ok.inj has
  obtain rfl := Except.ok.inj hbs
  obtain rfl := Except.ok.inj hcs
  unfold vecAdd at hc
  split at hc
  · cases hc
  · next hl =>
    have hl : a.length = b.length := not_not.1 hl
    obtain rfl := Except.ok.inj hc
    simp only [tab_getElem]
    unfold vecAdd
    rw [if_neg (by simp [hl])]
    congr 1
    apply List.ext_getElem
    · simp [hl]
    · intro i h1 h2
      simp only [tab_length, List.length_zipWith] at h2
      rw [List.getElem_zipWith]
      simp only [tab_getElem, cpoly_eval_sum]
      have h3 : i < a.length := by omega
      have h4 : i < b.length := by omega
      have h5 : i < (List.zipWith (fun x y => x + y) a b).length := by simp; omega
      rw [coef_of_lt h3, coef_of_lt h4, coef_of_lt h5, List.getElem_zipWith]
      simp only [add_mul, Finset.sum_add_distrib]
      ring

/-- C48: `shamir_unshard` commutes with the addition of arbitrary shares `A k` and `B k` (it may raise `IndexError` on the
sum). -/
theorem C48_unshard_add (idx : List ℕ) (hnd : idx.Nodup) (hlt : ∀ j ∈ idx, j + 1 < PyField.modulus F) (n : ℕ)
    (A B S : List (List F)) (hA : A.length = idx.length) (hB : B.length = idx.length)
    (hA' : ∀ x ∈ A, x.length = n) (hB' : ∀ x ∈ B, x.length = n)
    (hS : mapRes (fun xy : List F × List F => vecAdd xy.1 xy.2) (A.zip B) = .ok S) (u v : List F)
    (hu : shamirUnshard (idx.map fun j : ℕ => (j : ℤ)) A = .ok u)
    (hv : shamirUnshard (idx.map fun j : ℕ => (j : ℤ)) B = .ok v) :
    shamirUnshard (idx.map fun j : ℕ => (j : ℤ)) S = .error .index ∨
    ∃ w, shamirUnshard (idx.map fun j : ℕ => (j : ℤ)) S = .ok w ∧ vecAdd u v = .ok w := by
  have hne : idx ≠ [] := by
    rintro rfl
    rw [List.length_nil] at hA
    obtain rfl := List.length_eq_zero_iff.1 hA
    simp [shamirUnshard, getI] at hu
  have rep : ∀ (A : List (List F)), A.length = idx.length → (∀ x ∈ A, x.length = n) →
      ∃ f : ℕ → ℕ → F, A = tab idx.length fun k => tab n (f k) := by
    intro A hA hA'
    refine ⟨fun k i => coef (A.getD k []) i, ?_⟩
    apply List.ext_getElem
    · simp [hA]
    · intro k h1 h2
      rw [tab_getElem]
      apply list_eq_of_coef
      · rw [tab_length, hA' _ (List.getElem_mem h1)]
      · intro i hi
        rw [hA' _ (List.getElem_mem h1)] at hi
        rw [coef_tab, if_pos hi]
        simp [h1]
  obtain ⟨fa, rfl⟩ := rep A hA hA'
  obtain ⟨fb, rfl⟩ := rep B hB hB'
  have eS : S = tab idx.length fun k => tab n fun i => fa k i + fb k i := by
    have hz : (tab idx.length fun k => tab n (fa k)).zip (tab idx.length fun k => tab n (fb k)) =
        tab idx.length fun k => (tab n (fa k), tab n (fb k)) := by
      apply List.ext_getElem
      · simp
      · intro k h1 h2
        rw [List.getElem_zip]
        simp only [tab_getElem]
    rw [hz] at hS
    unfold tab at hS
    rw [mapRes_map, mapRes_pure _ (fun k => tab n fun i => fa k i + fb k i)] at hS
    · exact (Except.ok.inj hS).symm
    · intro k _
      show vecAdd (tab n (fa k)) (tab n (fb k)) = _
      unfold vecAdd
      rw [if_neg (by simp)]
      congr 1
      apply List.ext_getElem
      · simp
      · intro i h1 h2
        rw [List.getElem_zipWith]
        simp only [tab_getElem]
  subst eS
  rw [unshard_eq idx hnd hlt hne] at hu hv ⊢
  split at hu
  · cases hu
  · split at hv
    · cases hv
    · obtain rfl := Except.ok.inj hu
      obtain rfl := Except.ok.inj hv
      split
      · exact .inl rfl
      · refine .inr ⟨_, rfl, ?_⟩
        unfold vecAdd
        rw [if_neg (by simp)]
        congr 1
        apply List.ext_getElem
        · simp
        · intro i h1 h2
          rw [List.getElem_zipWith]
          simp only [tab_getElem, mul_add, Finset.sum_add_distrib]

example : shamirUnshard [0, 1] [[(3 : Field64)], [5]] = .ok [1] ∧ shamirUnshard [0, 1] [[(4 : Field64)], [5]] = .ok [3] ∧
    shamirUnshard [0, 1] [[(7 : Field64)], [10]] = .ok [4] := by decide +kernel

/-! ## C51 -/

/-- C51: `t - 1` shares reveal nothing: whatever the vector, every possible list of `t - 1` shares results from exactly one
choice of the random coefficients. -/
theorem C51_privacy (meas : List F) (t num : ℕ) (hnum : num < PyField.modulus F) (ht : 1 ≤ t)
    (idx : List ℕ) (hnd : idx.Nodup) (hlt : ∀ j ∈ idx, j < num) (hl : idx.length = t - 1)
    (target : List (List F)) (htl : target.length = t - 1) (htn : ∀ x ∈ target, x.length = meas.length) :
    ∃ rand : ℕ → ℕ → F,
      (do let shares ← shamirShard meas t num rand; mapRes (getI shares) idx) = .ok target ∧
      ∀ rand' : ℕ → ℕ → F, (do let shares ← shamirShard meas t num rand'; mapRes (getI shares) idx) = .ok target →
        ∀ i < meas.length, ∀ k < t - 1, rand' i k = rand i k := by
  have hlt' : ∀ j ∈ idx, j + 1 < PyField.modulus F := fun j hj => by have := hlt j hj; omega
  have run : ∀ rand : ℕ → ℕ → F, (do let shares ← shamirShard meas t num rand; mapRes (getI shares) idx) =
      .ok (tab idx.length fun k => tab meas.length fun i =>
        (cpoly (coef meas i) t (rand i)).eval (pt F (idx.getD k 0))) := by
    intro rand
    rw [shard_eq meas t num rand hnum]
    simp only [Except.ok_bind']
    exact pick hlt
  have eq_iff : ∀ rand : ℕ → ℕ → F, (do let shares ← shamirShard meas t num rand; mapRes (getI shares) idx) =
      .ok target ↔ ∀ i < meas.length, ∀ k < t - 1,
        (cpoly (coef meas i) t (rand i)).eval (pt F (idx.getD k 0)) = coef (target.getD k []) i := by
    intro rand
    rw [run rand, Except.ok.injEq]
    constructor
    · rintro rfl i hi k hk
      have e : ∀ f : ℕ → List F, (tab idx.length f).getD k [] = f k := fun f => by simp [tab, hl, hk]
      rw [e, coef_tab, if_pos hi]
    · intro h
      apply List.ext_getElem
      · simp [hl, htl]
      · intro k h1 h2
        rw [tab_getElem]
        apply list_eq_of_coef
        · rw [tab_length, htn _ (List.getElem_mem h2)]
        · intro i hi
          rw [tab_length] at hi
          rw [coef_tab, if_pos hi, h i hi k (by omega)]
          simp [h2]
  have ex := fun i => cpoly_exists (coef meas i) ht idx hnd hlt' hl fun k => coef (target.getD k []) i
  choose rand hrand using fun i => (ex i).1
  refine ⟨rand, (eq_iff rand).2 fun i _ => hrand i, fun rand' h i hi k hk => ?_⟩
  exact (ex i).2 (rand i) (rand' i) (hrand i) ((eq_iff rand').1 h i hi) k hk

-- the secrets 5 and 9 lead to the same share
example : ((do let s ← shamirShard [(5 : Field64)] 2 3 fun _ _ => 3; mapRes (getI s) [1]) = .ok [[11]]) ∧
    ((do let s ← shamirShard [(9 : Field64)] 2 3 fun _ _ => 1; mapRes (getI s) [1]) = .ok [[11]]) := by
  decide +kernel
end

/-! ## C52 -/

section
variable {F : Type} [NttField F] {Meas Agg : Type}

/-- C52: FLP queries on Shamir shares.  If the measurement and the proof, honest or not, are shared and at least `t`
Aggregators run `query` on their shares as if alone, then either all abort because of the test point, as does the query
on the whole, or reconstructing their verifier shares gives the verifier of the whole; `shamir_unshard` raises
`IndexError` if in some coordinate the verifier shares are all zero. -/
theorem C52_query {V : Valid F Meas Agg} {fn : Spec.Fun Meas Agg} (hV : Spec.Library F V fn) (hfit : Spec.Fits V)
    {meas π qr jr : List F} (hmeas : meas.length = V.measLen) (hπ : V.proofLen = .ok π.length)
    (hqr : qr.length = V.queryRandLen) (hjr : jr.length = V.jointRandLen)
    (t num : ℕ) (rm rp : ℕ → ℕ → F) (hnum : num < PyField.modulus F) (ht : 1 ≤ t)
    (ms ps : List (List F)) (hms : shamirShard meas t num rm = .ok ms) (hps : shamirShard π t num rp = .ok ps)
    (idx : List ℕ) (hnd : idx.Nodup) (hlt : ∀ j ∈ idx, j < num) (htl : t ≤ idx.length) :
    let queries := mapRes (fun j => do
      let m ← getI ms j
      let p ← getI ps j
      V.query m p qr jr 1) idx
    (Spec.BadTestPoint V qr ∧ queries = .error rootOfUnityErr ∧ V.query meas π qr jr 1 = .error rootOfUnityErr) ∨
    (¬ Spec.BadTestPoint V qr ∧ ∃ vs v, queries = .ok vs ∧ V.query meas π qr jr 1 = .ok v ∧
      ((2 ≤ idx.length ∧ ∃ i < v.length, ∀ w ∈ vs, w[i]? = some 0) →
        shamirUnshard (idx.map fun j : ℕ => (j : ℤ)) vs = .error .index) ∧
      (¬ (2 ≤ idx.length ∧ ∃ i < v.length, ∀ w ∈ vs, w[i]? = some 0) →
        shamirUnshard (idx.map fun j : ℕ => (j : ℤ)) vs = .ok v)) := by
  intro queries
  have h := (Library.facts hV hfit).lawful
  have hπ' := h.proofLen_iff.1 hπ
  have hlt' : ∀ j ∈ idx, j + 1 < PyField.modulus F := fun j hj => by have := hlt j hj; omega
  have hne : idx ≠ [] := List.length_pos_iff.1 (by omega)
  rw [shard_eq _ _ _ _ hnum] at hms hps
  obtain rfl := Except.ok.inj hms
  obtain rfl := Except.ok.inj hps
  have hq : queries = mapRes (fun j => V.query
      (tab V.measLen fun i => (cpoly (coef meas i) t (rm i)).eval (pt F j))
      (tab (V.off V.num) fun i => (cpoly (coef π i) t (rp i)).eval (pt F j)) qr jr 1) idx := by
    apply mapRes_congr
    intro j hj
    rw [getI_tab (hlt j hj), getI_tab (hlt j hj), hmeas, hπ']
    rfl
  rw [hq]
  by_cases hb : Spec.BadTestPoint V qr
  · left
    have bad : ∀ m p : List F, m.length = V.measLen → p.length = V.off V.num →
        V.query m p qr jr 1 = .error rootOfUnityErr := by
      intro m p h1 h2
      rcases h.query_total h1 (h.proofLen_iff.2 h2) hqr hjr le_rfl (one_lt_modulus F) with hx | hx
      · exact hx.2
      · exact absurd hb hx.1
    refine ⟨hb, ?_, bad _ _ hmeas hπ'⟩
    obtain ⟨j, l, rfl⟩ := List.exists_cons_of_ne_nil hne
    rw [mapRes_cons, bad _ _ (by simp) (by simp)]
    rfl
  · right
    refine ⟨hb, ?_⟩
    obtain ⟨vs, h1, h2⟩ := query_affine h hqr hjr hb idx.length (lam idx) (lam_sum idx hnd hlt' hne)
      (fun k i => (cpoly (coef meas i) t (rm i)).eval (pt F (idx.getD k 0)))
      (fun k i => (cpoly (coef π i) t (rp i)).eval (pt F (idx.getD k 0)))
    have reco : ∀ (x : List F) (n : ℕ) (r : ℕ → ℕ → F), x.length = n → (tab n fun i => ∑ k ∈ range idx.length, lam idx k *
        (cpoly (coef x i) t (r i)).eval (pt F (idx.getD k 0))) = x := by
      rintro x n r rfl
      apply list_eq_of_coef
      · simp
      · intro i hi
        rw [tab_length] at hi
        rw [coef_tab, if_pos hi, ← interp_zero idx hnd hlt' _ (cpoly_degree _ ht htl _),
          ← Polynomial.coeff_zero_eq_eval_zero, cpoly_coeff_zero]
    rw [reco meas _ rm hmeas, reco π _ rp hπ'] at h2
    refine ⟨tab idx.length fun k => tab V.verifierLen (vs k), _, ?_, h2, ?_⟩
    · have hidx : idx = tab idx.length fun k => idx.getD k 0 := by
        apply List.ext_getElem
        · simp
        · intro k h1 h2; rw [tab_getElem]; simp [h1]
      rw [hidx]
      unfold tab
      rw [mapRes_map, mapRes_pure _ fun k => tab V.verifierLen (vs k)]
      · simp [tab]
      · intro k _
        exact h1 k
    · rw [unshard_eq idx hnd hlt' hne, tab_length]
      have hiff : (∃ i < V.verifierLen, ∀ w ∈ (tab idx.length fun k => tab V.verifierLen (vs k)), w[i]? = some 0) ↔
          ∃ i < V.verifierLen, ∀ k < idx.length, vs k i = 0 := by
        refine exists_congr fun i => and_congr_right fun hi => ?_
        have : ∀ k, (tab V.verifierLen (vs k))[i]? = some (vs k i) := fun k => by
          rw [List.getElem?_eq_getElem (by simpa using hi), tab_getElem]
        simp [tab, ← List.getElem?_map] at this ⊢
        simp [hi]
      exact ⟨fun h => if_pos ⟨h.1, hiff.1 h.2⟩, fun h => if_neg fun h' => h ⟨h'.1, hiff.2 h'.2⟩⟩

/-- C52: completeness of the composition: for an accepting measurement and its honest proof, at least `t` Aggregators decide
to accept, unless the test point is a root of unity or `shamir_unshard` raises `IndexError`, which it does exactly if
there are at least two shares and in some coordinate all the verifier shares are zero. -/
theorem C52_completeness {V : Valid F Meas Agg} {fn : Spec.Fun Meas Agg} (hV : Spec.Library F V fn)
    (hfit : Spec.Fits V) {meas jr pr qr : List F} (hmeas : meas.length = V.measLen)
    (hjr : jr.length = V.jointRandLen) (hpr : pr.length = V.proveRandLen) (hqr : qr.length = V.queryRandLen)
    (hacc : Spec.Accepts V meas jr) (t num : ℕ) (rm rp : ℕ → ℕ → F) (hnum : num < PyField.modulus F) (ht : 1 ≤ t)
    (idx : List ℕ) (hnd : idx.Nodup) (hlt : ∀ j ∈ idx, j < num) (htl : t ≤ idx.length) :
    let queries : Res (List (List F)) := do
      let π ← V.prove meas pr jr
      let ms ← shamirShard meas t num rm
      let ps ← shamirShard π t num rp
      mapRes (fun j => do
        let m ← getI ms j
        let p ← getI ps j
        V.query m p qr jr 1) idx
    let run : Res Bool := do
      let vs ← queries
      let v ← shamirUnshard (idx.map fun j : ℕ => (j : ℤ)) vs
      V.decide v
    (Spec.BadTestPoint V qr ∧ run = .error rootOfUnityErr) ∨
    (¬ Spec.BadTestPoint V qr ∧ ∃ vs, queries = .ok vs ∧ (∀ w ∈ vs, w.length = V.verifierLen) ∧
      ((2 ≤ idx.length ∧ ∃ i < V.verifierLen, ∀ w ∈ vs, w[i]? = some 0) → run = .error .index) ∧
      (¬ (2 ≤ idx.length ∧ ∃ i < V.verifierLen, ∀ w ∈ vs, w[i]? = some 0) → run = .ok true)) := by
  intro queries run
  have h := (Library.facts hV hfit).lawful
  obtain ⟨π, h1, h2, h3⟩ := h.decide_honest hmeas hjr hacc hpr
  have hms := shard_eq meas t num rm hnum
  have hps := shard_eq π t num rp hnum
  have key := C52_query hV hfit hmeas h2 hqr hjr t num rm rp hnum ht _ _ hms hps idx hnd hlt htl
  have hqs : queries = mapRes (fun j => do
        let m ← getI (tab num fun j => tab meas.length fun i => (cpoly (coef meas i) t (rm i)).eval (pt F j)) j
        let p ← getI (tab num fun j => tab π.length fun i => (cpoly (coef π i) t (rp i)).eval (pt F j)) j
        V.query m p qr jr 1) idx := by
    simp only [queries, h1, hms, hps, Except.ok_bind']
  have hrun : run = queries >>= fun vs => shamirUnshard (idx.map fun j : ℕ => (j : ℤ)) vs >>= V.decide := rfl
  rw [hrun]
  rw [← hqs] at key
  rcases key with ⟨hb, hq, -⟩ | ⟨hb, vs, v, hq, hv, k1, k2⟩
  · rw [hq]
    exact .inl ⟨hb, rfl⟩
  · have hvl : v.length = V.verifierLen := by
      rcases h.query_total hmeas h2 hqr hjr le_rfl (one_lt_modulus F) with ⟨hb', -⟩ | ⟨-, v', e1, e2⟩
      · exact absurd hb' hb
      · rw [hv] at e1
        cases e1
        exact e2
    rw [hvl] at k1 k2
    refine .inr ⟨hb, vs, hq, ?_, fun hz => ?_, fun hz => ?_⟩
    · intro w hw
      rw [hqs, mapRes_ok_iff] at hq
      obtain ⟨i, hi, rfl⟩ := List.getElem_of_mem hw
      have := hq.get (by rw [hq.length_eq]; exact hi) hi
      simp only [List.get_eq_getElem, Except.bind_eq_ok, getI_eq_ok] at this
      obtain ⟨m, hm, p, hp, e⟩ := this
      have hm' : m.length = V.measLen := by
        obtain ⟨_, rfl⟩ := List.getElem?_eq_some_iff.1 hm
        simp [tab_getElem, hmeas]
      have hp' : V.proofLen = .ok p.length := by
        obtain ⟨_, rfl⟩ := List.getElem?_eq_some_iff.1 hp
        simpa [tab_getElem] using h2
      rcases h.query_total hm' hp' hqr hjr le_rfl (one_lt_modulus F) with ⟨hb', -⟩ | ⟨-, v', e1, e2⟩
      · exact absurd hb' hb
      · rw [e] at e1
        cases e1
        exact e2
    · rw [hq, Except.ok_bind', k1 hz]
      rfl
    · rw [hq, Except.ok_bind', k2 hz]
      exact h3 qr hqr v hv

/-- C52: aggregation of Shamir shares.  The measurements of a batch are encoded and shared; the `k`-th of at least `t`
Aggregators truncates its shares and adds them up to `agg k`.  Then reconstructing and decoding the aggregate shares gives the
aggregate of the batch, unless `shamir_unshard` raises `IndexError`, which it does exactly if in some coordinate all
the aggregate shares are zero. -/
theorem C52_aggregate {V : Valid F Meas Agg} {fn : Spec.Fun Meas Agg} (hV : Spec.Library F V fn)
    {N : ℕ} (batch : Fin N → Meas) (hvalid : ∀ i, fn.valid (batch i))
    (t num : ℕ) (r : Fin N → ℕ → ℕ → F) (hnum : num < PyField.modulus F) (ht : 1 ≤ t)
    (idx : List ℕ) (hnd : idx.Nodup) (hlt : ∀ j ∈ idx, j < num) (htl : t ≤ idx.length)
    (outs : Fin N → ℕ → List F)
    (houts : ∀ i k (hk : k < idx.length), (do
      let meas ← V.encode (batch i)
      let shares ← shamirShard meas t num (r i)
      let share ← getI shares idx[k]
      V.truncate share) = .ok (outs i k))
    (agg : ℕ → List F) (hlen : ∀ k < idx.length, (agg k).length = V.outputLen)
    (hagg : ∀ k < idx.length, Spec.IsSum (fun i => outs i k) (agg k))
    (hsmall : ∀ n ∈ fn.totals (fn.agg (List.ofFn batch)), n < PyField.modulus F) :
    let unshard := shamirUnshard (idx.map fun j : ℕ => (j : ℤ)) ((List.range idx.length).map agg)
    (2 ≤ idx.length ∧ (∃ i < V.outputLen, ∀ k < idx.length, (agg k)[i]? = some 0) ∧ unshard = .error .index) ∨
    (¬ (2 ≤ idx.length ∧ ∃ i < V.outputLen, ∀ k < idx.length, (agg k)[i]? = some 0) ∧
      ∃ tot, unshard = .ok tot ∧ V.decode tot N = .ok (fn.agg (List.ofFn batch))) := by
  intro unshard
  have hlt' : ∀ j ∈ idx, j + 1 < PyField.modulus F := fun j hj => by have := hlt j hj; omega
  have hne : idx ≠ [] := List.length_pos_iff.1 (by omega)
  obtain ⟨es, os, h1, h2⟩ := C13_encode_truncate_decode hV batch hvalid
  -- the truncated shares of each measurement
  have hT : ∀ i, ∃ o : ℕ → ℕ → F, (∀ k < idx.length, outs i k = tab V.outputLen (o k)) ∧
      os i = tab V.outputLen fun x => ∑ k ∈ range idx.length, lam idx k * o k x := by
    intro i
    obtain ⟨g1, g2, g3, g4⟩ := h1 i
    obtain ⟨o, ho1, ho2⟩ := trunc_affine hV idx.length (lam idx) (lam_sum idx hnd hlt' hne)
      (fun k x => (cpoly (coef (es i) x) t (r i x)).eval (pt F (idx.getD k 0)))
    refine ⟨o, fun k hk => ?_, ?_⟩
    · have := houts i k hk
      rw [g1] at this
      simp only [Except.ok_bind'] at this
      rw [shard_eq _ _ _ _ hnum] at this
      simp only [Except.ok_bind'] at this
      rw [getI_tab (hlt _ (List.getElem_mem hk))] at this
      simp only [Except.ok_bind'] at this
      have ho := ho1 k
      have e : idx.getD k 0 = idx[k] := by simp [hk]
      rw [e, ← g2, this] at ho
      exact Except.ok.inj ho
    · have e : (tab V.measLen fun x => ∑ k ∈ range idx.length, lam idx k *
          (cpoly (coef (es i) x) t (r i x)).eval (pt F (idx.getD k 0))) = es i := by
        rw [← g2]
        apply list_eq_of_coef
        · simp
        · intro x hx
          rw [tab_length] at hx
          rw [coef_tab, if_pos hx, ← interp_zero idx hnd hlt' _ (cpoly_degree _ ht htl _),
            ← Polynomial.coeff_zero_eq_eval_zero, cpoly_coeff_zero]
      rw [e, g3] at ho2
      exact Except.ok.inj ho2
  choose o ho1 ho2 using hT
  have hagg' : ∀ k < idx.length, agg k = tab V.outputLen fun x => ∑ i, o i k x := by
    intro k hk
    apply list_eq_of_coef
    · rw [hlen k hk, tab_length]
    · intro x hx
      rw [hlen k hk] at hx
      rw [(isSum_iff.1 (hagg k hk)).2 x, coef_tab, if_pos hx]
      refine Finset.sum_congr rfl fun i _ => ?_
      rw [ho1 i k hk, coef_tab, if_pos hx]
  have hun : unshard = shamirUnshard (idx.map fun j : ℕ => (j : ℤ))
      (tab idx.length fun k => tab V.outputLen fun x => ∑ i, o i k x) := by
    show shamirUnshard _ (tab idx.length agg) = _
    rw [tab_congr hagg']
  rw [unshard_eq idx hnd hlt' hne] at hun
  have hiff : (∃ i < V.outputLen, ∀ k < idx.length, (agg k)[i]? = some 0) ↔
      ∃ i < V.outputLen, ∀ k < idx.length, ∑ j, o j k i = 0 := by
    refine exists_congr fun i => and_congr_right fun hi => forall_congr' fun k => forall_congr' fun hk => ?_
    rw [hagg' k hk, List.getElem?_eq_getElem (by simpa using hi), tab_getElem]
    simp
  rw [hiff]
  by_cases hz : 2 ≤ idx.length ∧ ∃ i < V.outputLen, ∀ k < idx.length, ∑ j, o j k i = 0
  · exact .inl ⟨hz.1, hz.2, by rw [hun, if_pos hz]⟩
  · refine .inr ⟨hz, _, by rw [hun, if_neg hz], h2 _ ?_ (by simp) hsmall⟩
    rw [show os = fun i => tab V.outputLen fun x => ∑ k ∈ range idx.length, lam idx k * o i k x from funext ho2]
    apply isSum_tab
    intro x _
    rw [Finset.sum_comm]
    refine Finset.sum_congr rfl fun k _ => ?_
    rw [Finset.mul_sum]

-- verification and aggregation with two of three Aggregators
example : (do
    let V := Count Field64
    let meas ← V.encode 1
    let π ← V.prove meas [5, 6] []
    let ms ← shamirShard meas 2 3 fun i k => (i + k + 7 : ℕ)
    let ps ← shamirShard π 2 3 fun i k => (i * 3 + k + 11 : ℕ)
    let vs ← mapRes (fun j => do
      let m ← getI ms j
      let p ← getI ps j
      V.query m p [9] [] 1) [0, 2]
    let v ← shamirUnshard [0, 2] vs
    V.decide v) = .ok true := by decide +kernel

example : (do
    let V ← Sum Field64 10
    let out := fun (x : ℤ) (c : ℕ) (j : ℕ) => (do
      let meas ← V.encode x
      let shares ← shamirShard meas 2 3 fun i k => (c * i + k + 7 : ℕ)
      let share ← getI shares j
      V.truncate share)
    let a0 ← vecAdd (← out 3 5 0) (← out 10 8 0)
    let a2 ← vecAdd (← out 3 5 2) (← out 10 8 2)
    let tot ← shamirUnshard [0, 2] [a0, a2]
    V.decode tot 2) = .ok 13 := by decide +kernel
end

end Vdaf
