import Verif.Proofs.VecSizes
import Verif.Model.Fields

/-!
# Property C98: vectors of the wrong length are refused, never truncated

The functions of `common.py` for vectors, and the functions for aggregation of Prio3 and Poplar1 that are made of them.
-/

namespace Vdaf

section
variable {F : Type} [Add F] [Sub F] [Neg F] (a b : List F)

/-- C98: `vec_add` adds coordinate by coordinate, and raises `ValueError` for vectors of different lengths. -/
theorem C98_vec_add :
    (a.length = b.length → ∃ c, vecAdd a b = .ok c ∧ c.length = a.length ∧
      ∀ (i : ℕ) (x y : F), a[i]? = some x → b[i]? = some y → c[i]? = some (x + y)) ∧
    (a.length ≠ b.length → ∃ msg, vecAdd a b = .error (.value msg)) := by
  refine ⟨fun h => ⟨_, vecAdd_of_eq h, by simp [h], fun i x y hx hy => ?_⟩, fun h => ⟨_, vecAdd_of_ne h⟩⟩
  simp [List.getElem?_zipWith, hx, hy]

/-- C98: `vec_sub` likewise. -/
theorem C98_vec_sub :
    (a.length = b.length → ∃ c, vecSub a b = .ok c ∧ c.length = a.length ∧
      ∀ (i : ℕ) (x y : F), a[i]? = some x → b[i]? = some y → c[i]? = some (x - y)) ∧
    (a.length ≠ b.length → ∃ msg, vecSub a b = .error (.value msg)) := by
  refine ⟨fun h => ⟨_, if_neg (not_not.2 h), by simp [h], fun i x y hx hy => ?_⟩, fun h => ⟨_, if_pos h⟩⟩
  simp [List.getElem?_zipWith, hx, hy]

/-- C98: `vec_neg` negates coordinate by coordinate. -/
theorem C98_vec_neg : (vecNeg a).length = a.length ∧
    ∀ (i : ℕ) (x : F), a[i]? = some x → (vecNeg a)[i]? = some (-x) := by
  refine ⟨by simp [vecNeg], fun i x hx => ?_⟩
  simp [vecNeg, hx]

end

section
variable {X : Xof} {F Meas Agg : Type} [NttField F] (P : Prio3 X F Meas Agg)

/-- C98 for Prio3: `agg_update` accepts output shares of the length of the aggregate share only. -/
theorem C98_prio3_agg_update (aggShare outShare : List F) :
    (aggShare.length = outShare.length → ∃ c, Prio3.aggUpdate () aggShare outShare = .ok c ∧
      c.length = aggShare.length) ∧
    (aggShare.length ≠ outShare.length → ∃ msg, Prio3.aggUpdate () aggShare outShare = .error (.value msg)) :=
  ⟨fun h => ⟨_, vecAdd_of_eq h, by simp [h]⟩, fun h => ⟨_, vecAdd_of_ne h⟩⟩

/-- C98 for Prio3: `merge` succeeds exactly if all the aggregate shares have the length `OUTPUT_LEN`, and so has its
result; otherwise it raises `ValueError`. -/
theorem C98_prio3_merge (shares : List (List F)) :
    ((∀ s ∈ shares, s.length = P.flp.outputLen) →
      ∃ v, P.merge () shares = .ok v ∧ v.length = P.flp.outputLen) ∧
    ((∃ s ∈ shares, s.length ≠ P.flp.outputLen) → ∃ msg, P.merge () shares = .error (.value msg)) := by
  have h : P.merge () shares = forFold shares (fieldZeros F P.flp.outputLen) vecAdd := rfl
  have hz : (fieldZeros F P.flp.outputLen).length = P.flp.outputLen := by simp [fieldZeros]
  have key := forFold_vecAdd shares (fieldZeros F P.flp.outputLen)
  rw [hz] at key
  rw [h]
  rcases key with ⟨v, h1, h2, h3⟩ | ⟨h1, s, hs, h2⟩
  · exact ⟨fun _ => ⟨v, h1, h2⟩, fun ⟨s, hs, hn⟩ => absurd (h3 s hs) hn⟩
  · exact ⟨fun hall => absurd (hall s hs) h2, fun _ => ⟨_, h1⟩⟩

/-- C98 for Prio3: `unshard` raises `ValueError` if an aggregate share has another length. -/
theorem C98_prio3_unshard (shares : List (List F)) (n : ℕ) (h : ∃ s ∈ shares, s.length ≠ P.flp.outputLen) :
    ∃ msg, P.unshard () shares n = .error (.value msg) := by
  obtain ⟨msg, hm⟩ := (C98_prio3_merge P shares).2 h
  refine ⟨msg, ?_⟩
  unfold Prio3.unshard
  rw [hm]
  rfl

/-- C98 for Prio3: the verifier shares are combined only if all of them have as many field elements as the verifiers of
all the proofs. -/
theorem C98_prio3_verifier_shares (ctx : Bytes) (shares : List (List F × Option Bytes)) {msg : Option Bytes}
    (h : P.sharesToMessage ctx () shares = .ok msg) : ∀ s ∈ shares, s.1.length = P.flp.verifierLen * P.proofs := by
  unfold Prio3.sharesToMessage at h
  rw [Except.bind_eq_ok] at h
  obtain ⟨⟨vs, parts⟩, h, -⟩ := h
  have gen : ∀ (l : List (List F × Option Bytes)) (acc : List F × List Bytes) (r : List F × List Bytes),
      forFold l acc (fun (x : List F × List Bytes) (s : List F × Option Bytes) => do
        let verifiers ← vecAdd x.1 s.1
        let jointRandParts ← P.appendPart x.2 s.2
        return (verifiers, jointRandParts)) = .ok r → ∀ s ∈ l, s.1.length = acc.1.length := by
    intro l
    induction l with
    | nil => simp
    | cons s l ih =>
      intro acc r hr
      rw [forFold_cons, Except.bind_eq_ok] at hr
      obtain ⟨acc', h1, h2⟩ := hr
      simp only [Except.bind_eq_ok] at h1
      obtain ⟨v, hv, p, -, he⟩ := h1
      cases he
      have hl := vecAdd_length hv
      intro s' hs'
      rcases List.mem_cons.1 hs' with rfl | hs'
      · exact hl.1.symm
      · rw [ih _ _ h2 s' hs']
        exact hl.2
  have := gen shares _ _ h
  simpa [fieldZeros] using this

end

/-- C98 for Poplar1: `agg_update` accepts output shares of the length of the aggregate share only. -/
theorem C98_poplar1_agg_update (p : Poplar1AggParam) (aggShare outShare : FieldVec) :
    (aggShare.2.length = outShare.2.length → ∃ c, Poplar1.aggUpdate p aggShare outShare = .ok c ∧
      c.2.length = aggShare.2.length) ∧
    (aggShare.2.length ≠ outShare.2.length → ∃ msg, Poplar1.aggUpdate p aggShare outShare = .error (.value msg)) := by
  refine ⟨fun h => ?_, fun h => ⟨_, vecAddF_of_ne h⟩⟩
  obtain ⟨c, h1, -, h2⟩ := vecAddF_of_eq h
  exact ⟨c, h1, h2⟩

/-- C98 for Poplar1: `merge` succeeds exactly if all the aggregate shares have one element per prefix, and so has its
result; otherwise it raises `ValueError`, and so does `unshard`. -/
theorem C98_poplar1_merge (P : Poplar1) (p : Poplar1AggParam) (shares : List FieldVec) (n : ℕ) :
    ((∀ s ∈ shares, s.2.length = p.2.length) →
      (∃ v, P.merge p shares = .ok v ∧ v.2.length = p.2.length) ∧
      ∃ R, P.unshard p shares n = .ok R ∧ R.length = p.2.length) ∧
    ((∃ s ∈ shares, s.2.length ≠ p.2.length) →
      ∃ msg, P.merge p shares = .error (.value msg) ∧ P.unshard p shares n = .error (.value msg)) := by
  have key := forFold_vecAddF shares ⟨P.idpf.currentField p.1, fieldZeros _ p.2.length⟩
  have hz : (fieldZeros (Fk (P.idpf.currentField p.1)) p.2.length).length = p.2.length := by simp [fieldZeros]
  simp only [hz] at key
  have hu : P.unshard p shares n = (P.merge p shares).bind fun agg => .ok (agg.2.map PyField.toNat) := rfl
  rw [hu]
  rcases key with ⟨v, h1, h2, h3⟩ | ⟨h1, s, hs, h2⟩
  · have h1 : P.merge p shares = .ok v := h1
    rw [h1]
    exact ⟨fun _ => ⟨⟨v, rfl, h2⟩, _, rfl, by simp [h2]⟩, fun ⟨s, hs, hn⟩ => absurd (h3 s hs) hn⟩
  · have h1 : P.merge p shares = _ := h1
    rw [h1]
    exact ⟨fun hall => absurd (hall s hs) h2, fun _ => ⟨_, rfl, rfl⟩⟩

-- both cases occur
example : vecAdd [(1 : Field64), 2] [3, 4] = .ok [4, 6] ∧ vecSub [(1 : Field64), 2] [1, 1] = .ok [0, 1] ∧
    vecNeg [(0 : Field64), 1] = [0, -1] ∧
    vecAdd [(1 : Field64), 2] [3] = .error (.value "mismatched vector sizes") ∧
    vecSub [(1 : Field64)] [3, 4] = .error (.value "mismatched vector sizes") := by decide +kernel
example : (⟨⟨2, 4⟩⟩ : Poplar1).unshard (1, [[true, false], [true, true]])
    [⟨.inner, ([1, 2] : List Field64)⟩, ⟨.inner, ([3, 4] : List Field64)⟩] 4 = .ok [4, 6] := by decide +kernel
example : (⟨⟨2, 4⟩⟩ : Poplar1).unshard (1, [[true, false], [true, true]])
    [⟨.inner, ([1, 2] : List Field64)⟩, ⟨.inner, ([3] : List Field64)⟩] 4 =
      .error (.value "mismatched vector sizes") := by decide +kernel

end Vdaf
