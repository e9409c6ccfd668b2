import Verif.Spec.AgreementAll
import Verif.Proofs.Agreement
import Verif.Proofs.Prio3Sound

/-! Agreement of all Aggregators -/

namespace Vdaf
open Spec

theorem flatten_inj {n : ℕ} : ∀ {a b : List Bytes}, (∀ x ∈ a, x.length = n) → (∀ x ∈ b, x.length = n) → a.length = b.length →
    a.flatten = b.flatten → a = b
  | [], [], _, _, _, _ => rfl
  | [], _ :: _, _, _, h, _ => by simp at h
  | _ :: _, [], _, _, h, _ => by simp at h
  | x :: a, y :: b, ha, hb, h, he => by
    simp only [List.flatten_cons] at he
    have := List.append_inj he (by rw [ha x (by simp), hb y (by simp)])
    rw [this.1, flatten_inj (fun z hz => ha z (by simp [hz])) (fun z hz => hb z (by simp [hz])) (by simpa using h) this.2]

namespace Prio3
variable {F : Type} [NttField F] {Meas Agg : Type} {prims : Prims} {fuel : ℕ}
  {P : Prio3 (XofTurboShake128 prims fuel) F Meas Agg}

omit [NttField F] in
theorem acceptsMessage_iff {ctx : Bytes} {st : List F × Option Bytes} {msg : Option Bytes} :
    AcceptsMessage ctx st msg ↔ msg = st.2 := by
  obtain ⟨o, c⟩ := st
  unfold AcceptsMessage verifyNext
  constructor
  · rintro ⟨r, h⟩
    by_contra hne
    simp [hne, raiseIf] at h
  · rintro rfl
    exact ⟨o, by simp [raiseIf]⟩

theorem message_of_shares (hj : 0 < P.flp.jointRandLen) {ctx : Bytes} {sh : ℕ → List F × Option Bytes} {own : ℕ → Bytes}
    {msg : Option Bytes} (ho : ∀ j < P.shares, (sh j).2 = some (own j))
    (h : P.sharesToMessage ctx () ((List.range P.shares).map sh) = .ok msg) :
    ∃ seed, msg = some seed ∧ P.jointRandSeed ctx ((List.range P.shares).map own) = .ok seed := by
  have hl := sharesToMessage_lengths h
  have := sharesToMessage_eq (P := P) (ctx := ctx) (N := P.shares) (w := fun j => (sh j).1) (part := fun j => (sh j).2) (pb := own)
    (fun j hj => hl _ (List.mem_map.2 ⟨j, List.mem_range.2 hj, rfl⟩)) (fun _ => ho)
  rw [show tab P.shares (fun j => ((sh j).1, (sh j).2)) = (List.range P.shares).map sh from rfl, h] at this
  replace this := this.symm
  rw [Except.bind_eq_ok] at this
  obtain ⟨_, -, this⟩ := this
  rw [if_pos hj, Except.bind_eq_ok] at this
  obtain ⟨seed, h1, this⟩ := this
  cases this
  exact ⟨seed, rfl, h1⟩

theorem accepts_iff_parts (hj : 0 < P.flp.jointRandLen) {verifyKey ctx nonce : Bytes} {parts : List Bytes}
    {ish : ℕ → Prio3InputShare F} {st sh : ℕ → List F × Option Bytes} {msg : Option Bytes} {own : ℕ → Bytes}
    (h : Combined P verifyKey ctx nonce (some parts) ish st sh msg) (ho : ∀ j < P.shares, (sh j).2 = some (own j))
    (hl : parts.length = P.shares) (hp : ∀ p ∈ parts, p.length = 32) (hc : NoSeedCollision P ctx parts own)
    {j : ℕ} (hlt : j < P.shares) :
    AcceptsMessage ctx (st j) msg ↔ ∀ i < P.shares, i ≠ j → parts[i]? = some (own i) := by
  obtain ⟨h1, h2⟩ := h
  obtain ⟨seed, rfl, h3⟩ := message_of_shares hj ho h2
  have hown : ∀ i < P.shares, (own i).length = 32 := by
    intro i hi
    obtain ⟨_, p, _, -, h5, h6, -⟩ := verifyInit_parts hj (h1 i hi)
    rw [ho i hi] at h6
    cases h6
    exact h5
  obtain ⟨parts', p, seed', hpp, -, h5, h6, h7⟩ := verifyInit_parts hj (h1 j hlt)
  cases hpp
  rw [ho j hlt] at h5
  cases h5
  rw [acceptsMessage_iff, h7]
  have key : some seed = some seed' ↔ parts.set j (own j) = (List.range P.shares).map own := by
    constructor
    · intro he
      cases he
      refine flatten_inj (n := 32) ?_ ?_ (by simp [hl]) (hc j hlt ?_)
      · intro x hx
        rcases List.mem_or_eq_of_mem_set hx with hx | rfl
        · exact hp x hx
        · exact hown j hlt
      · intro x hx
        obtain ⟨i, hi, rfl⟩ := List.mem_map.1 hx
        exact hown i (List.mem_range.1 hi)
      · rw [(jointRandSeed_ok.1 h3).2]
        exact (jointRandSeed_ok.1 h6).2
    · intro he
      rw [he, h3] at h6
      cases h6
      rfl
  rw [key]
  constructor
  · intro he i hi hne
    have := congrArg (fun l : List Bytes => l[i]?) he
    simpa [List.getElem?_set, hne.symm, hi] using this
  · intro he
    apply List.ext_getElem?
    intro i
    by_cases hi : i < P.shares
    · by_cases hij : j = i
      · subst hij
        simp [hl, hi]
      · rw [List.getElem?_set, if_neg hij, he i hi (Ne.symm hij)]
        simp [hi]
    · rw [List.getElem?_eq_none (by simp [hl]; omega), List.getElem?_eq_none (by simp; omega)]

theorem accepts_no_joint_rand (hj : P.flp.jointRandLen = 0) {verifyKey ctx nonce : Bytes} {pub : Option (List Bytes)}
    {ish : ℕ → Prio3InputShare F} {st sh : ℕ → List F × Option Bytes} {msg : Option Bytes}
    (h : Combined P verifyKey ctx nonce pub ish st sh msg) {j : ℕ} (hlt : j < P.shares) : AcceptsMessage ctx (st j) msg := by
  obtain ⟨h1, h2⟩ := h
  have hm : msg = none := by
    have := sharesToMessage_shape h2
    cases msg with
    | none => rfl
    | some b => exact absurd this.1 (by omega)
  subst hm
  rw [acceptsMessage_iff]
  have h3 := h1 j hlt
  unfold verifyInit at h3
  rw [Except.bind_eq_ok] at h3; obtain ⟨⟨ms, ps, bl⟩, -, h3⟩ := h3
  dsimp only at h3
  rw [Except.bind_eq_ok] at h3; obtain ⟨os, -, h3⟩ := h3
  rw [Except.bind_eq_ok] at h3; obtain ⟨⟨jrs, corr, part⟩, g, h3⟩ := h3
  dsimp only at h3
  rw [Except.bind_eq_ok] at h3; obtain ⟨qrs, -, h3⟩ := h3
  rw [Except.bind_eq_ok] at h3; obtain ⟨w, -, h3⟩ := h3
  unfold verifyJointRand at g
  rw [if_neg (by omega)] at g
  cases g
  have := Prod.mk.inj (Except.ok.inj h3)
  rw [← this.1]

end Prio3

namespace Poplar1
variable {P : Poplar1} {prims : Prims} {fuel : ℕ}

theorem accepts_last {k ctx nonce : Bytes} {a : Poplar1AggParam} {pub : List CorrectionWord}
    {s : ℕ → Poplar1InputShare} {st : ℕ → Poplar1VerifyState} {sh : ℕ → FieldVec} {msg : Option FieldVec}
    (h : ∀ j < 2, Held (P.vdaf prims fuel) k ctx a nonce pub j (s j) 1 (st j) (sh j))
    (hm : sharesToMessage ctx a [sh 0, sh 1] = .ok msg) {j : ℕ} (hj : j < 2) :
    verifyNext ctx (st j) msg = .ok (.out (st j).mem) := by
  have hs0 : (sh 0).2.length = 1 := by
    rcases (held_shape (h 0 (by omega))).2.2.2 with ⟨hx, -⟩ | ⟨-, -, h⟩
    · omega
    · exact h
  have hs1 : (st j).step = .reveal := by
    rcases (held_shape (h j hj)).2.2.2 with ⟨hx, -⟩ | ⟨-, h, -⟩
    · omega
    · exact h
  have hmsg : msg = none := by
    unfold sharesToMessage at hm
    dsimp only at hm
    rw [Except.bind_eq_ok] at hm
    obtain ⟨w, h4, h8⟩ := hm
    have hw : w.2.length = 1 := by
      unfold vecAddF at h4
      rw [Except.bind_eq_ok] at h4; obtain ⟨u, h9, h4⟩ := h4
      cases h4
      unfold vecAdd at h9
      split at h9
      · cases h9
      · rename_i hl
        cases h9
        simp at hl ⊢
        omega
    split at h8
    · rename_i hx
      rw [hx] at hw
      cases hw
    · split at h8
      · cases h8; rfl
      · cases h8
    · cases h8
  subst hmsg
  unfold verifyNext
  rw [hs1]

end Poplar1
end Vdaf
