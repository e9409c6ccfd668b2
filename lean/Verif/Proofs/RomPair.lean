import Verif.Proofs.RomGame

/-! Collisions of the oracle. -/

set_option linter.unusedSectionVars false

namespace Vdaf
open Finset
attribute [local instance] bytesFintype

theorem deferred_one {ι A : Type} [Fintype ι] [DecidableEq ι] [Fintype A] [Nonempty A] (Sel : (ι → A) → ι → Prop)
    (h1 : ∀ O i j, Sel O i → Sel O j → i = j) (h2 : ∀ O i y, Sel O i → Sel (Function.update O i y) i)
    (E : Set (ι → A)) (hE : ∀ O ∈ E, ∃ i, Sel O i) {ε : ℚ} (hε : 0 ≤ ε)
    (h : ∀ O i, Sel O i → (Set.ncard {y | Function.update O i y ∈ E} : ℚ) ≤ ε * Fintype.card A) :
    (E.ncard : ℚ) ≤ ε * Fintype.card (ι → A) := by
  classical
  let c : (ι → A) → Option ι := fun O => if h : ∃ i, Sel O i then some h.choose else none
  have hc : ∀ O i, c O = some i ↔ Sel O i := by
    intro O i
    constructor
    · intro h
      simp only [c] at h
      split at h
      · next h' =>
        rw [← Option.some.inj h]
        exact h'.choose_spec
      · cases h
    · intro h
      have h' : ∃ i, Sel O i := ⟨i, h⟩
      simp only [c]
      rw [dif_pos h', h1 O _ _ h'.choose_spec h]
  refine deferred c id id (fun O d x hO => ?_) (fun O d x hO => ?_) E (fun O hO hn => ?_) (fun _ _ => ε) hε
    (fun O d hO => h O d ((hc _ _).1 hO)) (fun d _ => ?_)
  · rw [hc] at hO ⊢
    exact h2 O d x hO
  · rw [hc] at hO ⊢
    exact h2 O d x hO
  · obtain ⟨i, hi⟩ := hE O hO
    rw [(hc O i).2 hi] at hn
    cases hn
  · rw [sum_const, card_univ, nsmul_eq_mul, mul_comm]

theorem ncard_head {N : ℕ} (hN : 32 ≤ N) (base : ℕ → UInt8) (h : Bytes) :
    (Set.ncard {y : Fin N → UInt8 | Spec.bytesAt (withHead base y) 0 32 = h} : ℚ) ≤
      1 / 2 ^ 256 * Fintype.card (Fin N → UInt8) := by
  have hb : Fintype.card UInt8 = 256 := by
    rw [← Nat.card_eq_fintype_card, Nat.card_congr (⟨UInt8.toFin, UInt8.ofFin, fun _ => rfl, fun _ => rfl⟩ : UInt8 ≃ Fin 256)]
    simp
  have h1 : Set.ncard {y : Fin N → UInt8 | Spec.bytesAt (withHead base y) 0 32 = h} ≤ 256 ^ (N - 32) := by
    have h2 : Set.ncard {y : Fin N → UInt8 | Spec.bytesAt (withHead base y) 0 32 = h} ≤
        (Set.univ : Set (Fin (N - 32) → UInt8)).ncard := by
      refine Set.ncard_le_ncard_of_injOn (fun y i => y ⟨32 + i, by omega⟩) (fun _ _ => Set.mem_univ _) ?_ (Set.toFinite _)
      intro y hy z hz hyz
      simp only [Set.mem_ofPred_eq] at hy hz
      rw [← hz] at hy
      funext i
      by_cases hi : (i : ℕ) < 32
      · have := congrArg (fun l : Bytes => l[(i : ℕ)]?) hy
        simpa [Spec.bytesAt, hi, withHead, i.2] using this
      · have := congrFun hyz ⟨i - 32, by omega⟩
        simp only at this
        have e : (⟨32 + (i - 32), by omega⟩ : Fin N) = i := Fin.ext (by simp; omega)
        rwa [e] at this
    rw [Set.ncard_univ, Nat.card_eq_fintype_card, Fintype.card_fun, hb, Fintype.card_fin] at h2
    exact h2
  rw [Fintype.card_fun, hb, Fintype.card_fin]
  have h3 : (256 : ℚ) ^ N = 256 ^ (N - 32) * 2 ^ 256 := by
    rw [show (2 : ℚ) ^ 256 = 256 ^ 32 by norm_num, ← pow_add, Nat.sub_add_cancel hN]
  push_cast
  rw [h3]
  have h4 : ((Set.ncard {y : Fin N → UInt8 | Spec.bytesAt (withHead base y) 0 32 = h} : ℕ) : ℚ) ≤ 256 ^ (N - 32) := by
    exact_mod_cast h1
  rw [mul_comm ((256 : ℚ) ^ (N - 32)), ← mul_assoc, one_div, inv_mul_cancel₀ (by positivity), one_mul]
  exact h4

theorem glue_upd {prims : Prims} {S : Set Bytes} [DecidableEq S] {N : ℕ} (f : S → Fin N → UInt8) (m0 : S)
    (y : Fin N → UInt8) {m : Bytes} (h : m ≠ m0) : glue prims S (Function.update f m0 y) m = glue prims S f m := by
  unfold glue
  split
  · next hm =>
    rw [Function.update_of_ne]
    rintro rfl
    exact h rfl
  · rfl

namespace Prio3

/-- The value at a place that is selected without it hits a value that does not depend on it. -/
theorem pair_bound {prims : Prims} {S : Set Bytes} [Fintype S] [DecidableEq S] {N : ℕ} (hN : 32 ≤ N)
    (Sel : (S → Fin N → UInt8) → S → Prop) (Tgt : (S → Fin N → UInt8) → Bytes → Prop)
    (s1 : ∀ f m m', Sel f m → Sel f m' → m = m') (s2 : ∀ f m y, Sel f m → Sel (Function.update f m y) m)
    (t1 : ∀ f h h', Tgt f h → Tgt f h' → h = h')
    (t2 : ∀ f m y h, Sel f m → Tgt (Function.update f m y) h → Tgt f h) :
    (Set.ncard {f | ∃ m, Sel f m ∧ Tgt f (headOf (glue prims S f) m)} : ℚ) ≤
      1 / 2 ^ 256 * Fintype.card (S → Fin N → UInt8) := by
  refine deferred_one Sel s1 s2 _ (by rintro O ⟨m, h, -⟩; exact ⟨m, h⟩) (by positivity) fun O m hm => ?_
  have hsub : ∃ h, {y | Function.update O m y ∈ {f | ∃ m, Sel f m ∧ Tgt f (headOf (glue prims S f) m)}} ⊆
      {y : Fin N → UInt8 | Spec.bytesAt (withHead (prims.turboShake m 1) y) 0 32 = h} := by
    by_cases hT : ∃ h, Tgt O h
    · obtain ⟨h, hh⟩ := hT
      refine ⟨h, ?_⟩
      rintro y ⟨m', k1, k2⟩
      have := s1 _ _ _ (s2 O m y hm) k1
      subst this
      have := t1 _ _ _ (t2 O m y _ hm k2) hh
      rw [headOf, glue_mem, Function.update_self] at this
      exact this
    · refine ⟨[], ?_⟩
      rintro y ⟨m', k1, k2⟩
      have := s1 _ _ _ (s2 O m y hm) k1
      subst this
      exact absurd ⟨_, t2 O m y _ hm k2⟩ hT
  obtain ⟨h, hsub⟩ := hsub
  exact le_trans (by exact_mod_cast Set.ncard_le_ncard hsub (Set.toFinite _)) (ncard_head hN _ h)

variable {F : Type} [NttField F] {Meas Agg : Type} {prims : Prims} {fuel : ℕ}
  {P : Prio3 (XofTurboShake128 prims fuel) F Meas Agg} {T T' : Bytes → ℕ → UInt8}
open Spec (tag runWith withOracle OracleMove OracleReply OracleStrategy EncodedReport oracleRun oracleRespond sentNonces
  decodeReport acceptsEncoded accepts measShares oracleInputs)

/-- The inputs for parts of the joint randomness -/
def R7 (P : Prio3 (XofTurboShake128 prims fuel) F Meas Agg) (ctx : Bytes) : Set Bytes :=
  {m | ∃ j b ms nonce, j < P.shares ∧ b.length = 32 ∧ ms.length = P.flp.measLen ∧ nonce.length = 16 ∧
    m = partPos P ctx j b ms nonce}

/-- The inputs for joint randomness seeds -/
def R6 (P : Prio3 (XofTurboShake128 prims fuel) F Meas Agg) (ctx : Bytes) : Set Bytes :=
  {m | ∃ parts : List Bytes, parts.length = P.shares ∧ (∀ p ∈ parts, p.length = 32) ∧ m = seedPos P ctx parts}

theorem flatten_length_const {l : List Bytes} {n : ℕ} (h : ∀ p ∈ l, p.length = n) : l.flatten.length = n * l.length := by
  induction l with
  | nil => simp
  | cons a l ih =>
    rw [List.flatten_cons, List.length_append, h a (by simp), ih fun p hp => h p (by simp [hp]), List.length_cons]
    ring

theorem flatten_inj {l l' : List Bytes} {n : ℕ} (hl : l.length = l'.length) (h : ∀ p ∈ l, p.length = n)
    (h' : ∀ p ∈ l', p.length = n) (he : l.flatten = l'.flatten) : l = l' := by
  induction l generalizing l' with
  | nil => exact (List.length_eq_zero_iff.1 hl.symm).symm
  | cons a l ih =>
    cases l' with
    | nil => simp at hl
    | cons a' l' =>
      rw [List.flatten_cons, List.flatten_cons] at he
      obtain ⟨h1, h2⟩ := List.append_inj he (by rw [h a (by simp), h' a' (by simp)])
      rw [h1, ih (by simpa using hl) (fun p hp => h p (by simp [hp])) (fun p hp => h' p (by simp [hp])) h2]

theorem R7_inputs {vk ctx : Bytes} : R7 P ctx ⊆ oracleInputs P vk ctx := by
  rintro m ⟨j, b, ms, nonce, hj, hb, hm, hn, rfl⟩
  refine .inr (.inr (.inr ⟨b, _, hb, ?_, rfl⟩))
  rw [List.length_cons, List.length_append, encAll_length, hn, hm]
  ring

theorem R6_inputs {vk ctx : Bytes} : R6 P ctx ⊆ oracleInputs P vk ctx := by
  rintro m ⟨parts, h1, h2, rfl⟩
  exact .inr (.inr (.inl ⟨_, by rw [flatten_length_const h2, h1], rfl⟩))

theorem seen_mono {vk ctx : Bytes} {σ : OracleStrategy} {s t : ℕ} (h : s ≤ t) :
    Seen P T vk ctx σ s ⊆ Seen P T vk ctx σ t := by
  rintro m ⟨k, hk, hm⟩
  exact ⟨k, by omega, hm⟩

/-- The first move at which an input matters -/
theorem first_seen {vk ctx : Bytes} {σ : OracleStrategy} {t : ℕ} {m : Bytes} (h : m ∈ Seen P T vk ctx σ t) :
    ∃ k < t, m ∈ touched P T vk ctx (moveAt P T vk ctx σ k) ∧ m ∉ Seen P T vk ctx σ k := by
  classical
  have hex : ∃ k, k < t ∧ m ∈ touched P T vk ctx (moveAt P T vk ctx σ k) := h
  obtain ⟨h1, h2⟩ := Nat.find_spec hex
  refine ⟨_, h1, h2, ?_⟩
  rintro ⟨i, hi, h3⟩
  exact Nat.find_min hex hi ⟨by omega, h3⟩

section
variable (W : P.WF) {vk ctx : Bytes} (hctx : ctx.length + 8 < 2 ^ 16) (hvk : vk.length = 32)
include W hctx hvk

theorem partPos_inj {j j' : ℕ} {b b' nonce nonce' : Bytes} {ms ms' : List F} (hj : j < P.shares) (hj' : j' < P.shares)
    (hb : b.length = 32) (hb' : b'.length = 32) (hn : nonce.length = 16) (hn' : nonce'.length = 16)
    (h : partPos P ctx j b ms nonce = partPos P ctx j' b' ms' nonce') : j = j' ∧ b = b' ∧ ms = ms' ∧ nonce = nonce' := by
  obtain ⟨-, h2, h3⟩ := usage_eq W hctx hvk (by norm_num) (by norm_num) (by rw [hb]; norm_num) (by rw [hb']; norm_num) h
  obtain ⟨h4, h5⟩ := List.cons.inj h3
  obtain ⟨h6, h7⟩ := List.append_inj h5 (by rw [hn, hn'])
  refine ⟨?_, h2, encAll_inj h7, h6⟩
  have := congrArg UInt8.toNat h4
  have hs := W.shares_lt
  simpa [UInt8.toNat_ofNat, Nat.mod_eq_of_lt (show j < 256 by omega), Nat.mod_eq_of_lt (show j' < 256 by omega)] using this

theorem seedPos_inj {parts parts' : List Bytes} (h1 : parts.length = P.shares) (h2 : ∀ p ∈ parts, p.length = 32)
    (h1' : parts'.length = P.shares) (h2' : ∀ p ∈ parts', p.length = 32)
    (h : seedPos P ctx parts = seedPos P ctx parts') : parts = parts' := by
  obtain ⟨-, -, h3⟩ := usage_eq W hctx hvk (by norm_num) (by norm_num) (by simp) (by simp) h
  exact flatten_inj (by rw [h1, h1']) h2 h2' h3

theorem R7_not_R6 {m : Bytes} (h7 : m ∈ R7 P ctx) : m ∉ R6 P ctx := by
  rintro ⟨parts, h1, h2, h3⟩
  obtain ⟨j, b, ms, nonce, hj, hb, hm, hn, rfl⟩ := h7
  have := (usage_eq W hctx hvk (by norm_num) (by norm_num) (by rw [hb]; norm_num) (by simp) h3).1
  omega

theorem jr_not_R7 {s : Bytes} (hs : s.length = 32) : jrPos P ctx s ∉ R7 P ctx := by
  rintro ⟨j, b, ms, nonce, hj, hb, hm, hn, h⟩
  have := (usage_eq W hctx hvk (by norm_num) (by norm_num) (by rw [hs]; norm_num) (by rw [hb]; norm_num) h).1
  omega

theorem jr_not_R6 {s : Bytes} (hs : s.length = 32) : jrPos P ctx s ∉ R6 P ctx := by
  rintro ⟨parts, h1, h2, h⟩
  have := (usage_eq W hctx hvk (by norm_num) (by norm_num) (by rw [hs]; norm_num) (by simp) h).1
  omega

theorem qr_not_R7 {n : Bytes} : qrPos P vk ctx n ∉ R7 P ctx := by
  rintro ⟨j, b, ms, nonce, hj, hb, hm, hn, h⟩
  have := (usage_eq W hctx hvk (by norm_num) (by norm_num) (by rw [hvk]; norm_num) (by rw [hb]; norm_num) h).1
  omega

theorem qr_not_R6 {n : Bytes} : qrPos P vk ctx n ∉ R6 P ctx := by
  rintro ⟨parts, h1, h2, h⟩
  have := (usage_eq W hctx hvk (by norm_num) (by norm_num) (by rw [hvk]; norm_num) (by simp) h).1
  omega

omit W hctx hvk in
theorem partIn_R7 {e : EncodedReport} {r : Spec.Report F} {xs : List (List F × Option Bytes)}
    (ho : opened P T ctx e = some (r, xs)) {j : ℕ} (hj : j < P.shares) : partIn P ctx e.nonce xs j ∈ R7 P ctx := by
  have wf := opened_wf ho
  exact ⟨j, _, _, _, hj, (wf.blind j hj).2, wf.share j hj, (opened_iff.1 ho).1.1, rfl⟩

omit W hctx hvk in
theorem trueParts_spec (nonce : Bytes) (xs : List (List F × Option Bytes)) :
    (trueParts P T ctx nonce xs).length = P.shares ∧ ∀ p ∈ trueParts P T ctx nonce xs, p.length = 32 := by
  refine ⟨by simp [trueParts], fun p hp => ?_⟩
  obtain ⟨j, -, rfl⟩ := List.mem_map.1 hp
  exact headOf_length _

omit W hctx hvk in
/-- The inputs for a report are as they should be. -/
theorem submit_in7 {e : EncodedReport} {m : Bytes} (h : m ∈ inp7 P T ctx (.submit e)) : m ∈ R7 P ctx := by
  unfold inp7 at h
  cases ho : opened P T ctx e with
  | none => simp [ho] at h
  | some x =>
    obtain ⟨r, xs⟩ := x
    simp only [ho] at h
    obtain ⟨j, hj, rfl⟩ := List.mem_map.1 h
    exact partIn_R7 ho (List.mem_range.1 hj)

omit W hctx hvk in
theorem submit_in6 {e : EncodedReport} {m : Bytes} (h : m ∈ inp6 P T ctx (.submit e)) : m ∈ R6 P ctx := by
  unfold inp6 at h
  cases ho : opened P T ctx e with
  | none => simp [ho] at h
  | some x =>
    obtain ⟨r, xs⟩ := x
    simp only [ho] at h
    rcases List.mem_cons.1 h with rfl | h
    · obtain ⟨h1, h2⟩ := trueParts_spec (P := P) (T := T) (ctx := ctx) e.nonce xs
      exact ⟨_, h1, h2, rfl⟩
    · obtain ⟨j, hj, rfl⟩ := List.mem_map.1 h
      obtain ⟨pub, hp, h1, h2⟩ := (opened_wf ho).pub
      refine ⟨_, ?_, ?_, rfl⟩
      · rw [hp]; simp [h1]
      · intro p hp'
        rw [hp] at hp'
        rcases List.mem_or_eq_of_mem_set hp' with h3 | rfl
        · exact h2 p h3
        · exact headOf_length _

omit W hctx hvk in
theorem submit_in3 {e : EncodedReport} {m : Bytes} (h : m ∈ inp3 P T ctx (.submit e)) : ∃ r xs,
    opened P T ctx e = some (r, xs) ∧ m = jrPos P ctx (trueSeed P T ctx e.nonce xs) := by
  unfold inp3 at h
  cases ho : opened P T ctx e with
  | none => simp [ho] at h
  | some x =>
    obtain ⟨r, xs⟩ := x
    simp only [ho] at h
    exact ⟨r, xs, rfl, List.mem_singleton.1 h⟩

omit W hctx hvk in
theorem trueSeed_length (nonce : Bytes) (xs : List (List F × Option Bytes)) : (trueSeed P T ctx nonce xs).length = 32 :=
  headOf_length _

theorem touched_R7 {mv : OracleMove} {m : Bytes} (hm : m ∈ R7 P ctx) (h : m ∈ touched P T vk ctx mv) :
    m ∈ inp7 P T ctx mv := by
  rcases h with h | h | h | h
  · exact h
  · cases mv with
    | query => exact h
    | submit e => exact absurd (submit_in6 h) (R7_not_R6 W hctx hvk hm)
  · cases mv with
    | query => exact h
    | submit e =>
      obtain ⟨r, xs, -, rfl⟩ := submit_in3 h
      exact absurd hm (jr_not_R7 W hctx hvk (trueSeed_length _ _))
  · cases mv with
    | query => exact h
    | submit e =>
      rw [List.mem_singleton.1 h] at hm
      exact absurd hm (qr_not_R7 W hctx hvk)

theorem touched_R6 {mv : OracleMove} {m : Bytes} (hm : m ∈ R6 P ctx) (h : m ∈ touched P T vk ctx mv) :
    m ∈ inp6 P T ctx mv := by
  rcases h with h | h | h | h
  · cases mv with
    | query => exact h
    | submit e => exact absurd hm (R7_not_R6 W hctx hvk (submit_in7 h))
  · exact h
  · cases mv with
    | query => exact h
    | submit e =>
      obtain ⟨r, xs, -, rfl⟩ := submit_in3 h
      exact absurd hm (jr_not_R6 W hctx hvk (trueSeed_length _ _))
  · cases mv with
    | query => exact h
    | submit e =>
      rw [List.mem_singleton.1 h] at hm
      exact absurd hm (qr_not_R6 W hctx hvk)

theorem touched_jr {mv : OracleMove} {s : Bytes} (hs : s.length = 32) (h : jrPos P ctx s ∈ touched P T vk ctx mv) :
    jrPos P ctx s ∈ inp3 P T ctx mv := by
  rcases h with h | h | h | h
  · cases mv with
    | query => exact h
    | submit e => exact absurd (submit_in7 h) (jr_not_R7 W hctx hvk hs)
  · cases mv with
    | query => exact h
    | submit e => exact absurd (submit_in6 h) (jr_not_R6 W hctx hvk hs)
  · exact h
  · cases mv with
    | query => exact h
    | submit e => exact absurd (List.mem_singleton.1 h) (jr_ne_qr W hctx hvk _ _ (by rw [hs]; norm_num))

theorem touched_qr {mv : OracleMove} {n : Bytes} (h : qrPos P vk ctx n ∈ touched P T vk ctx mv) :
    mv = .query (qrPos P vk ctx n) ∨ ∃ e, mv = .submit e ∧ e.nonce = n := by
  cases mv with
  | query m =>
    rcases h with h | h | h | h <;> exact .inl (congrArg _ (List.mem_singleton.1 h).symm)
  | submit e =>
    right
    rcases h with h | h | h | h
    · exact absurd (submit_in7 h) (qr_not_R7 W hctx hvk)
    · exact absurd (submit_in6 h) (qr_not_R6 W hctx hvk)
    · obtain ⟨r, xs, -, h⟩ := submit_in3 h
      exact absurd h.symm (jr_ne_qr W hctx hvk _ _ (by rw [trueSeed_length]; norm_num))
    · exact ⟨e, rfl, (qr_inj W hctx hvk (List.mem_singleton.1 h)).symm⟩

omit W hctx hvk in
theorem touched_query {m m' : Bytes} : m' ∈ touched P T vk ctx (.query m) ↔ m' = m := by
  constructor
  · rintro (h | h | h | h) <;> exact List.mem_singleton.1 h
  · rintro rfl
    exact .inl (List.mem_singleton.2 rfl)

/-- Another value at an input that has not been seen. -/
theorem agree_glue {S : Set Bytes} [DecidableEq S] {N : ℕ} {B : Set Bytes} (f : S → Fin N → UInt8) {m0 : S}
    (y : Fin N → UInt8) (hm : (m0 : Bytes) ∈ R7 P ctx ∨ (m0 : Bytes) ∈ R6 P ctx) (hB : (m0 : Bytes) ∉ B) :
    AgreeOn P ctx (glue prims S f) (glue prims S (Function.update f m0 y)) B := by
  refine ⟨fun m hm' => glue_upd f m0 y fun h => ?_, fun m hm' => glue_upd f m0 y fun h => hB (h ▸ hm')⟩
  rcases hm with ⟨j, b, ms, nonce, hj, hb, -, -, h'⟩ | ⟨parts, -, -, h'⟩
  · exact hm' 7 b _ (by omega) (by rw [hb]; norm_num) (h.trans h')
  · exact hm' 6 _ _ (by omega) (by simp) (h.trans h')

end

end Prio3
end Vdaf
