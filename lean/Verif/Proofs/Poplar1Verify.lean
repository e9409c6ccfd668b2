import Verif.Proofs.Poplar1Shard

/-! Verification in Poplar1. -/

set_option linter.unusedSectionVars false

namespace Vdaf
open Finset

namespace Poplar1
variable {P : Poplar1} {prims : Prims} {fuel : ℕ}

/-- Component `t` of the value at the `i`-th prefix -/
def ent {κ : Kind} (value : List (List (Fk κ))) (i t : ℕ) : Fk κ := coef (value.getD i []) t

/-- The `i`-th value has its two components. -/
def RowOk {κ : Kind} (value : List (List (Fk κ))) (i : ℕ) : Prop := ∃ row, value[i]? = some row ∧ 2 ≤ row.length

theorem ent_of {κ : Kind} {value : List (List (Fk κ))} {i t : ℕ} {row : List (Fk κ)} (h : value[i]? = some row)
    (ht : t < row.length) : getI row t = .ok (ent value i t) := by
  unfold ent
  rw [List.getD_eq_getElem?_getD, h, Option.getD_some, coef_of_lt ht, getI_of_lt ht]

/-- The sketch, as sums -/
def sums {κ : Kind} (corr : Fk κ × Fk κ × Fk κ) (value : List (List (Fk κ))) (r : List (Fk κ)) :
    Fk κ × Fk κ × Fk κ :=
  (corr.1 + ∑ i ∈ range r.length, ent value i 0 * coef r i,
    corr.2.1 + ∑ i ∈ range r.length, ent value i 0 * coef r i ^ 2,
    corr.2.2 + ∑ i ∈ range r.length, ent value i 1 * coef r i)

theorem sketch_iff {κ : Kind} (corr : Fk κ × Fk κ × Fk κ) (value : List (List (Fk κ))) (r : List (Fk κ))
    (res : (Fk κ × Fk κ × Fk κ) × List (Fk κ)) :
    sketch corr value r = .ok res ↔
      (∀ i < r.length, RowOk value i) ∧ res = (sums corr value r, tab r.length fun i => ent value i 0) := by
  induction r using List.reverseRecOn generalizing res with
  | nil =>
    unfold sketch sums
    simp [tab, eq_comm]
  | append_singleton r x ih =>
    unfold sketch at ih ⊢
    rw [List.zipIdx_append, forFold_append, Except.bind_eq_ok]
    simp only [List.zipIdx_cons, List.zipIdx_nil, zero_add, forFold_cons, forFold_nil]
    constructor
    · rintro ⟨b, h1, h2⟩
      obtain ⟨h3, rfl⟩ := (ih b).1 h1
      rw [Except.bind_eq_ok] at h2
      obtain ⟨b, h2, h4⟩ := h2
      cases h4
      dsimp only at h2
      rw [Except.bind_eq_ok] at h2
      obtain ⟨v, g1, h2⟩ := h2
      rw [Except.bind_eq_ok] at h2
      obtain ⟨d, g2, h2⟩ := h2
      rw [g1, Except.ok_bind', Except.bind_eq_ok] at h2
      obtain ⟨a, g3, h2⟩ := h2
      rw [Except.pure_eq'] at h2
      cases h2
      have g1' := getI_eq_ok.1 g1
      have hl : 2 ≤ v.length := by
        by_contra hn
        rw [getI_err (by omega)] at g3
        cases g3
      rw [ent_of g1' (by omega)] at g2 g3
      cases g2; cases g3
      refine ⟨fun i hi => ?_, ?_⟩
      · rw [List.length_append] at hi
        by_cases hh : i < r.length
        · exact h3 i hh
        · have : i = r.length := by simp at hi; omega
          subst this
          exact ⟨v, g1', hl⟩
      · have hsum : ∀ f : Fk κ → ℕ → Fk κ, ∑ i ∈ range (r ++ [x]).length, f (coef (r ++ [x]) i) i =
            ∑ i ∈ range r.length, f (coef r i) i + f x r.length := by
          intro f
          rw [List.length_append, List.length_singleton, sum_range_succ]
          congr 1
          · refine sum_congr rfl fun i hi => ?_
            rw [coef_append, if_pos (mem_range.1 hi)]
          · rw [coef_append, if_neg (lt_irrefl _), Nat.sub_self]; rfl
        unfold sums
        rw [hsum fun y i => ent value i 0 * y, hsum fun y i => ent value i 0 * y ^ 2,
          hsum fun y i => ent value i 1 * y, List.length_append, List.length_singleton, tab_succ]
        simp only [add_assoc]
    · rintro ⟨h1, rfl⟩
      refine ⟨_, (ih _).2 ⟨fun i hi => h1 i (by simp; omega), rfl⟩, ?_⟩
      obtain ⟨v, g1, hl⟩ := h1 r.length (by simp)
      dsimp only
      rw [getI_of_some g1]
      simp only [Except.ok_bind']
      rw [ent_of g1 (by omega), ent_of g1 (by omega)]
      simp only [Except.ok_bind', Except.pure_eq']
      have hsum : ∀ f : Fk κ → ℕ → Fk κ, ∑ i ∈ range (r ++ [x]).length, f (coef (r ++ [x]) i) i =
          ∑ i ∈ range r.length, f (coef r i) i + f x r.length := by
        intro f
        rw [List.length_append, List.length_singleton, sum_range_succ]
        congr 1
        · refine sum_congr rfl fun i hi => ?_
          rw [coef_append, if_pos (mem_range.1 hi)]
        · rw [coef_append, if_neg (lt_irrefl _), Nat.sub_self]; rfl
      unfold sums
      rw [hsum fun y i => ent value i 0 * y, hsum fun y i => ent value i 0 * y ^ 2,
        hsum fun y i => ent value i 1 * y, List.length_append, List.length_singleton, tab_succ]
      simp only [add_assoc]

theorem verifyRand_length {vk ctx nonce : Bytes} {level n : ℕ} {r : List (Fk (P.idpf.currentField level))}
    (h : P.verifyRand prims fuel vk ctx nonce level n = .ok r) : r.length = n := by
  unfold verifyRand at h
  rw [Except.bind_eq_ok] at h
  obtain ⟨tag, -, h⟩ := h
  rw [Except.bind_eq_ok] at h
  obtain ⟨lv, -, h⟩ := h
  rw [Except.bind_eq_ok] at h
  obtain ⟨x, -, h⟩ := h
  rw [Except.bind_eq_ok] at h
  obtain ⟨⟨v, x'⟩, h1, h⟩ := h
  cases h
  obtain ⟨-, -, -, -, h, -⟩ := (nextVec_ok _ _ _ _ _).1 h1
  exact h

theorem ofInt_id {κ : Kind} {j : ℕ} (hj : j < 2) : ofInt (Fk κ) j = .ok (j : Fk κ) := by
  rw [ofInt_nat]
  have : 2 < PyField.modulus (Fk κ) := two_lt_modulus κ
  omega

/-- What `verify_init` computes -/
structure InitRun (P : Poplar1) (prims : Prims) (fuel : ℕ) (vk ctx : Bytes) (j level : ℕ)
    (prefixes : List (List Bool)) (nonce : Bytes) (pub : List CorrectionWord) (s : Poplar1InputShare)
    (value : List (List (Fk (P.idpf.currentField level)))) (corr : Fk (P.idpf.currentField level) × _ × _)
    (A B : Fk (P.idpf.currentField level)) (r : List (Fk (P.idpf.currentField level))) : Prop where
  eval : P.idpf.eval prims fuel j pub s.key level prefixes ctx nonce = .ok value
  corr : P.corrShares prims fuel ctx j level nonce s.corrSeed = .ok [corr.1, corr.2.1, corr.2.2]
  ab : abShares level s.corrInner s.corrLeaf _ = [A, B]
  rand : P.verifyRand prims fuel vk ctx nonce level prefixes.length = .ok r
  rows : ∀ i < r.length, RowOk value i

theorem verifyInit_iff {vk ctx : Bytes} {j level : ℕ} (hj : j < 2) {prefixes : List (List Bool)} {nonce : Bytes}
    {pub : List CorrectionWord} {s : Poplar1InputShare} {st : Poplar1VerifyState} {sh : FieldVec} :
    P.verifyInit prims fuel vk ctx j (level, prefixes) nonce pub s = .ok (st, sh) ↔
      ∃ value corr A B r, InitRun P prims fuel vk ctx j level prefixes nonce pub s value corr A B r ∧
        st = ⟨.evaluate, level, ⟨_, [A, B, (j : Fk (P.idpf.currentField level))] ++
          tab r.length fun i => ent value i 0⟩⟩ ∧
        sh = ⟨_, [(sums corr value r).1, (sums corr value r).2.1, (sums corr value r).2.2]⟩ := by
  unfold verifyInit
  dsimp only
  constructor
  · intro h
    rw [Except.bind_eq_ok] at h
    obtain ⟨value, h1, h⟩ := h
    rw [Except.bind_eq_ok] at h
    obtain ⟨corr, h2, h⟩ := h
    split at h
    next a b c =>
      split at h
      next A B hab =>
        rw [Except.bind_eq_ok] at h
        obtain ⟨r, h3, h⟩ := h
        rw [Except.bind_eq_ok] at h
        obtain ⟨⟨sk, out⟩, h4, h⟩ := h
        obtain ⟨h5, h6⟩ := (sketch_iff _ _ _ _).1 h4
        cases h6
        dsimp only at h
        rw [ofInt_id hj, Except.ok_bind', Except.pure_eq'] at h
        cases h
        exact ⟨value, (a, b, c), A, B, r, ⟨h1, h2, hab, h3, h5⟩, rfl, rfl⟩
      next => cases h
    next => cases h
  · rintro ⟨value, ⟨a, b, c⟩, A, B, r, H, rfl, rfl⟩
    have h1 := H.eval
    have h2 := H.corr
    dsimp only at h2
    rw [h1]
    simp only [Except.ok_bind']
    rw [h2]
    simp only [Except.ok_bind']
    rw [H.ab]
    dsimp only
    rw [H.rand]
    simp only [Except.ok_bind']
    rw [(sketch_iff (a, b, c) value r _).2 ⟨H.rows, rfl⟩]
    simp only [Except.ok_bind']
    rw [ofInt_id hj]
    rfl

theorem message_three {κ : Kind} (ctx : Bytes) (a : Poplar1AggParam) (x0 x1 x2 y0 y1 y2 : Fk κ) :
    sharesToMessage ctx a [⟨κ, [x0, x1, x2]⟩, ⟨κ, [y0, y1, y2]⟩] =
      .ok (some ⟨κ, [x0 + y0, x1 + y1, x2 + y2]⟩) := by
  unfold sharesToMessage vecAddF
  dsimp only
  rw [castVec_self]
  rfl

theorem message_one {κ : Kind} (ctx : Bytes) (a : Poplar1AggParam) (x y : Fk κ) :
    sharesToMessage ctx a [⟨κ, [x]⟩, ⟨κ, [y]⟩] =
      if x + y = 0 then .ok none else .error (.value "sketch verification failed") := by
  have : PyField.toNat (x + y) = 0 ↔ x + y = 0 := by
    constructor
    · intro h
      have := PyField.natCast_toNat (x + y)
      rw [h] at this
      simpa using this.symm
    · intro h
      rw [h]
      exact toNat_zero
  unfold sharesToMessage vecAddF
  dsimp only
  rw [castVec_self, show vecAdd [x] [y] = .ok [x + y] from rfl]
  simp only [Except.ok_bind', Except.pure_eq']
  by_cases h : x + y = 0
  · rw [if_pos (this.2 h), if_pos h]
  · rw [if_neg (fun g => h (this.1 g)), if_neg h]

theorem next_evaluate {κ : Kind} (ctx : Bytes) (level : ℕ) (A B id z0 z1 z2 : Fk κ) (out : List (Fk κ)) :
    verifyNext ctx ⟨.evaluate, level, ⟨κ, [A, B, id] ++ out⟩⟩ (some ⟨κ, [z0, z1, z2]⟩) =
      .ok (.cont ⟨.reveal, level, ⟨κ, out⟩⟩ ⟨κ, [id * (z0 ^ 2 - z1 - z2) + A * z0 + B]⟩) := by
  unfold verifyNext
  dsimp only
  rw [castElem_self, castElem_self]
  rfl

end Poplar1
end Vdaf
