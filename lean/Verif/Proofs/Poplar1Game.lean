import Verif.Proofs.Poplar1Oracle
import Verif.Proofs.Poplar1Valid
import Verif.Proofs.RomKey

/-! The probability that a Client of Poplar1 that evaluates the oracle wins. -/

set_option linter.unusedSectionVars false

namespace Vdaf.Poplar1
open Finset
open Spec (tag withOracle Poplar1Move Poplar1Reply Poplar1Strategy EncodedReport poplar1Run poplar1Respond previousParams
  poplar1Outputs verifyRandInput verifyRandInputs oracles)
attribute [local instance] bytesFintype
variable {prims : Prims} {fuel : ℕ} {P : Poplar1} {T T' : Bytes → ℕ → UInt8}

/-- The two bytes of a level -/
theorem levelBytes {level : ℕ} (hl : level < 2 ^ 16) :
    toBeBytes level 2 = .ok [UInt8.ofNat (level / 2 ^ 8), UInt8.ofNat level] := by
  rw [toBeBytes_nat (by omega)]
  congr 1
  simp only [natToLe, List.reverse_cons, List.reverse_nil, List.nil_append, List.cons_append, List.cons.injEq, and_true]
  constructor <;> (apply UInt8.toNat_inj.1; simp)

theorem levelBytes_inj {l l' : ℕ} (hl : l < 2 ^ 16) (hl' : l' < 2 ^ 16)
    (h : [UInt8.ofNat (l / 2 ^ 8), UInt8.ofNat l] = [UInt8.ofNat (l' / 2 ^ 8), UInt8.ofNat l']) : l = l' := by
  simp only [List.cons.injEq, and_true] at h
  have h1 := congrArg UInt8.toNat h.1
  have h2 := congrArg UInt8.toNat h.2
  simp only [UInt8.toNat_ofNat'] at h1 h2
  omega

theorem position_inj {vk vk' ctx n n' : Bytes} {l l' : ℕ} (hctx : ctx.length + 8 < 2 ^ 16) (hvk : vk.length = 32)
    (hvk' : vk'.length = 32) (hn : n.length = 16) (hn' : n'.length = 16) (hl : l < 2 ^ 16) (hl' : l' < 2 ^ 16)
    (h : verifyRandInput vk ctx n l = verifyRandInput vk' ctx n' l') : vk = vk' ∧ n = n' ∧ l = l' := by
  have hd : (tag 6 4 ctx).length < 2 ^ 16 := by rw [Prio3.tag_length]; omega
  obtain ⟨h1, -, h2⟩ := turboInput_inj hd hd (by omega) (by omega) h
  obtain ⟨h3, h4⟩ := List.append_inj h2 (hn.trans hn'.symm)
  exact ⟨h1, h3, levelBytes_inj hl hl' h4⟩

theorem verifyRand_ev {vk ctx nonce : Bytes} {level n : ℕ} (hctx : ctx.length + 8 < 2 ^ 16) (hvk : vk.length = 32)
    {r : List (Fk (P.idpf.currentField level))} : P.verifyRand prims fuel vk ctx nonce level n = .ok r ↔
      level < 2 ^ 16 ∧ Ev (Fk (P.idpf.currentField level)) fuel n (prims.turboShake (verifyRandInput vk ctx nonce level) 1) r := by
  have hd : (tag 6 4 ctx).length < 2 ^ 16 := by rw [Prio3.tag_length]; omega
  by_cases hl : level < 2 ^ 16
  · have h1 : P.verifyRand prims fuel vk ctx nonce level n = Spec.poplar1VerifyRand P prims fuel vk ctx nonce level n := by
      unfold verifyRand dst
      rw [Prio3.tag_ok_iff.2 ⟨by decide, by decide, rfl⟩, levelBytes hl]
      rfl
    rw [h1]
    unfold Spec.poplar1VerifyRand
    rw [expandIntoVec_ev hd (by omega)]
    simp only [hl, true_and]
    rfl
  · constructor
    · intro h
      unfold verifyRand at h
      obtain ⟨tag, -, h⟩ := Except.bind_eq_ok.1 h
      obtain ⟨lv, h2, h⟩ := Except.bind_eq_ok.1 h
      obtain ⟨v, hv, hv', -⟩ := toBeBytes_eq_ok.1 h2
      rw [← Nat.cast_injective hv] at hv'
      omega
    · exact fun h => absurd h.1 hl

theorem tuple_ok {ctx : Bytes} {st : Poplar1VerifyState} {m : Option FieldVec} {st' : Poplar1VerifyState} {sh : FieldVec}
    (h : (P.vdaf prims fuel).verifyNextTuple ctx st m = .ok (st', sh)) : verifyNext ctx st m = .ok (.cont st' sh) := by
  unfold VdafImpl.verifyNextTuple at h
  obtain ⟨out, h1, h⟩ := Except.bind_eq_ok.1 h
  rw [show verifyNext ctx st m = .ok out from h1]
  cases out with
  | cont st'' sh'' =>
    obtain ⟨rfl, rfl⟩ := Prod.mk.inj (Except.ok.inj h)
    rfl
  | out o => cases h

theorem out_ok {ctx : Bytes} {st : Poplar1VerifyState} {m : Option FieldVec} {o : FieldVec}
    (h : (P.vdaf prims fuel).verifyNextOut ctx st m = .ok o) : verifyNext ctx st m = .ok (.out o) := by
  unfold VdafImpl.verifyNextOut at h
  obtain ⟨out, h1, h⟩ := Except.bind_eq_ok.1 h
  rw [show verifyNext ctx st m = .ok out from h1]
  cases out with
  | cont st'' sh'' => cases h
  | out o =>
    cases h
    rfl

theorem verify_succeeds {vk ctx nonce : Bytes} {a : Poplar1AggParam} {pub : List CorrectionWord} {s0 s1 : Poplar1InputShare}
    {o : FieldVec × FieldVec} (h : Spec.poplar1Verify P prims fuel vk ctx a nonce pub s0 s1 = .ok o) :
    Spec.Poplar1Succeeds P prims fuel vk ctx a nonce pub s0 s1 o.1 o.2 := by
  unfold Spec.poplar1Verify at h
  obtain ⟨⟨st0, sh0⟩, h0, h⟩ := Except.bind_eq_ok.1 h
  obtain ⟨⟨st1, sh1⟩, h1, h⟩ := Except.bind_eq_ok.1 h
  obtain ⟨m, hm, h⟩ := Except.bind_eq_ok.1 h
  obtain ⟨⟨st0', sh0'⟩, n0, h⟩ := Except.bind_eq_ok.1 h
  obtain ⟨⟨st1', sh1'⟩, n1, h⟩ := Except.bind_eq_ok.1 h
  obtain ⟨m', hm', h⟩ := Except.bind_eq_ok.1 h
  obtain ⟨o0, p0, h⟩ := Except.bind_eq_ok.1 h
  obtain ⟨o1, p1, h⟩ := Except.bind_eq_ok.1 h
  cases h
  exact ⟨st0, sh0, st1, sh1, m, st0', sh0', st1', sh1', m', h0, h1, hm, tuple_ok n0, tuple_ok n1, hm', out_ok p0, out_ok p1⟩

theorem verifyInit_mono {vk vk' ctx nonce : Bytes} {j : ℕ} (hj : j < 2) {a : Poplar1AggParam} {pub : List CorrectionWord}
    {s : Poplar1InputShare} {x : Poplar1VerifyState × FieldVec} (hctx : ctx.length + 8 < 2 ^ 16) (hvk : vk.length = 32)
    (hvk' : vk'.length = 32) (H : SameElsewhere ctx T T')
    (hQ : a.1 < 2 ^ 16 → ∀ κ n r, Ev (Fk κ) fuel n (T (verifyRandInput vk ctx nonce a.1)) r →
      Ev (Fk κ) fuel n (T' (verifyRandInput vk' ctx nonce a.1)) r)
    (h : P.verifyInit (withOracle prims T) fuel vk ctx j a nonce pub s = .ok x) :
    P.verifyInit (withOracle prims T') fuel vk' ctx j a nonce pub s = .ok x := by
  obtain ⟨level, prefixes⟩ := a
  obtain ⟨st, sh⟩ := x
  obtain ⟨v, c, A, B, r, R, h1, h2⟩ := (verifyInit_iff hj).1 h
  refine (verifyInit_iff hj).2 ⟨v, c, A, B, r, ⟨?_, ?_, R.ab, ?_, R.rows⟩, h1, h2⟩
  · rw [eval_congr H]; exact R.eval
  · rw [corrShares_congr H]; exact R.corr
  · have := (verifyRand_ev hctx hvk).1 R.rand
    simp only [withOracle, if_true] at this
    refine (verifyRand_ev hctx hvk').2 ⟨this.1, ?_⟩
    simp only [withOracle, if_true]
    exact hQ this.1 _ _ _ this.2

theorem outputs_mono {vk vk' ctx : Bytes} {e : EncodedReport} {a : Poplar1AggParam} {o : FieldVec × FieldVec}
    (hctx : ctx.length + 8 < 2 ^ 16) (hvk : vk.length = 32) (hvk' : vk'.length = 32) (H : SameElsewhere ctx T T')
    (hQ : a.1 < 2 ^ 16 → ∀ κ n r, Ev (Fk κ) fuel n (T (verifyRandInput vk ctx e.nonce a.1)) r →
      Ev (Fk κ) fuel n (T' (verifyRandInput vk' ctx e.nonce a.1)) r)
    (h : poplar1Outputs P (withOracle prims T) fuel vk ctx e a = .ok o) :
    poplar1Outputs P (withOracle prims T') fuel vk' ctx e a = .ok o := by
  unfold Spec.poplar1Outputs at h ⊢
  obtain ⟨pub, h1, h⟩ := Except.bind_eq_ok.1 h
  obtain ⟨b0, h2, h⟩ := Except.bind_eq_ok.1 h
  obtain ⟨s0, h3, h⟩ := Except.bind_eq_ok.1 h
  obtain ⟨b1, h4, h⟩ := Except.bind_eq_ok.1 h
  obtain ⟨s1, h5, h⟩ := Except.bind_eq_ok.1 h
  rw [h1, Except.ok_bind', h2, Except.ok_bind']
  refine Except.bind_eq_ok.2 ⟨s0, h3, ?_⟩
  rw [h4, Except.ok_bind']
  refine Except.bind_eq_ok.2 ⟨s1, h5, ?_⟩
  unfold Spec.poplar1Verify at h ⊢
  obtain ⟨x0, i0, h⟩ := Except.bind_eq_ok.1 h
  obtain ⟨x1, i1, h⟩ := Except.bind_eq_ok.1 h
  refine Except.bind_eq_ok.2 ⟨x0, verifyInit_mono (by norm_num) hctx hvk hvk' H hQ i0, ?_⟩
  refine Except.bind_eq_ok.2 ⟨x1, verifyInit_mono (by norm_num) hctx hvk hvk' H hQ i1, ?_⟩
  have e0 : ∀ prims, (P.vdaf prims fuel).verifyNext = verifyNext := fun _ => rfl
  have e1 : ∀ st m, (P.vdaf (withOracle prims T') fuel).verifyNextTuple ctx st m =
      (P.vdaf (withOracle prims T) fuel).verifyNextTuple ctx st m := by
    intro st m
    simp only [VdafImpl.verifyNextTuple, e0]
  have e2 : ∀ st m, (P.vdaf (withOracle prims T') fuel).verifyNextOut ctx st m =
      (P.vdaf (withOracle prims T) fuel).verifyNextOut ctx st m := by
    intro st m
    simp only [VdafImpl.verifyNextOut, e0]
  simp only [e1, e2]
  exact h

/-! ### The run -/

/-- The move after `t` moves -/
def moveAt (P : Poplar1) (prims : Prims) (fuel : ℕ) (T : Bytes → ℕ → UInt8) (vk ctx : Bytes) (σ : Poplar1Strategy) (t : ℕ) :
    Poplar1Move := σ ((poplar1Run P (withOracle prims T) fuel vk ctx σ t).map Prod.snd)

/-- A report is verified after `t` moves. -/
def VerifiedAt (P : Poplar1) (prims : Prims) (fuel : ℕ) (T : Bytes → ℕ → UInt8) (vk ctx : Bytes) (σ : Poplar1Strategy) (t : ℕ)
    (e : EncodedReport) (a : Poplar1AggParam) : Prop :=
  moveAt P prims fuel T vk ctx σ t = .submit e a ∧ e.nonce.length = 16 ∧
    isValid a (previousParams e.nonce (poplar1Run P (withOracle prims T) fuel vk ctx σ t)) = .ok true

theorem run_succ (vk ctx : Bytes) (σ : Poplar1Strategy) (t : ℕ) :
    poplar1Run P (withOracle prims T) fuel vk ctx σ (t + 1) = poplar1Run P (withOracle prims T) fuel vk ctx σ t ++
      [(moveAt P prims fuel T vk ctx σ t, poplar1Respond P (withOracle prims T) fuel vk ctx
        (poplar1Run P (withOracle prims T) fuel vk ctx σ t) (moveAt P prims fuel T vk ctx σ t))] := rfl

theorem mem_run {vk ctx : Bytes} {σ : Poplar1Strategy} {q : ℕ} {x : Poplar1Move × Poplar1Reply}
    (h : x ∈ poplar1Run P (withOracle prims T) fuel vk ctx σ q) : ∃ t < q, x = (moveAt P prims fuel T vk ctx σ t,
      poplar1Respond P (withOracle prims T) fuel vk ctx (poplar1Run P (withOracle prims T) fuel vk ctx σ t)
        (moveAt P prims fuel T vk ctx σ t)) := by
  induction q with
  | zero => cases h
  | succ q ih =>
    rw [run_succ] at h
    rcases List.mem_append.1 h with h | h
    · obtain ⟨t, h1, h2⟩ := ih h
      exact ⟨t, by omega, h2⟩
    · exact ⟨q, by omega, List.mem_singleton.1 h⟩

theorem run_mem (vk ctx : Bytes) (σ : Poplar1Strategy) {t q : ℕ} (h : t < q) :
    (moveAt P prims fuel T vk ctx σ t, poplar1Respond P (withOracle prims T) fuel vk ctx
      (poplar1Run P (withOracle prims T) fuel vk ctx σ t) (moveAt P prims fuel T vk ctx σ t)) ∈
      poplar1Run P (withOracle prims T) fuel vk ctx σ q := by
  induction q with
  | zero => omega
  | succ q ih =>
    rw [run_succ]
    by_cases hq : t < q
    · exact List.mem_append.2 (.inl (ih hq))
    · have : t = q := by omega
      subst this
      exact List.mem_append.2 (.inr (List.mem_singleton.2 rfl))

theorem respond_submit {vk ctx : Bytes} {hist : List (Poplar1Move × Poplar1Reply)} {e : EncodedReport} {a : Poplar1AggParam}
    (h : e.nonce.length = 16 ∧ isValid a (previousParams e.nonce hist) = .ok true) :
    poplar1Respond P prims fuel vk ctx hist (.submit e a) = .verdict (match poplar1Outputs P prims fuel vk ctx e a with
        | .ok _ => true
        | .error _ => false) := by
  unfold Spec.poplar1Respond
  exact if_pos h

theorem respond_refused {vk ctx : Bytes} {hist : List (Poplar1Move × Poplar1Reply)} {e : EncodedReport} {a : Poplar1AggParam}
    (h : ¬ (e.nonce.length = 16 ∧ isValid a (previousParams e.nonce hist) = .ok true)) :
    poplar1Respond P prims fuel vk ctx hist (.submit e a) = .refused := by
  unfold Spec.poplar1Respond
  exact if_neg h

theorem respond_verdict {vk ctx : Bytes} {hist : List (Poplar1Move × Poplar1Reply)} {e : EncodedReport} {a : Poplar1AggParam}
    {b : Bool} (h : poplar1Respond P prims fuel vk ctx hist (.submit e a) = .verdict b) :
    e.nonce.length = 16 ∧ isValid a (previousParams e.nonce hist) = .ok true := by
  by_contra hc
  rw [respond_refused hc] at h
  cases h

theorem previous_guarded (vk ctx : Bytes) (σ : Poplar1Strategy) (nonce : Bytes) (t : ℕ) :
    Spec.Guarded isValid (previousParams nonce (poplar1Run P (withOracle prims T) fuel vk ctx σ t)) := by
  induction t with
  | zero => exact .nil
  | succ t ih =>
    rw [run_succ]
    unfold Spec.previousParams at ih ⊢
    rw [List.filterMap_append]
    cases hm : moveAt P prims fuel T vk ctx σ t with
    | query m => simpa [Spec.poplar1Respond] using ih
    | submit e a =>
      by_cases hv : e.nonce.length = 16 ∧ isValid a (previousParams e.nonce (poplar1Run P (withOracle prims T) fuel vk ctx σ t)) =
          .ok true
      · rw [respond_submit hv]
        by_cases hn : e.nonce = nonce
        · simp only [List.filterMap_cons, List.filterMap_nil, if_pos hn]
          refine .snoc ih ?_
          rw [← hn]
          exact hv.2
        · simpa [hn] using ih
      · rw [respond_refused hv]
        simpa using ih

/-- A report with the same nonce was verified at lower levels only. -/
theorem lower_level {vk ctx : Bytes} {σ : Poplar1Strategy} {t k : ℕ} (hk : k < t) {e e' : EncodedReport}
    {a a' : Poplar1AggParam} (h : VerifiedAt P prims fuel T vk ctx σ t e a) (h' : VerifiedAt P prims fuel T vk ctx σ k e' a')
    (hn : e'.nonce = e.nonce) : a'.1 < a.1 := by
  have hg := Spec.Guarded.snoc (previous_guarded vk ctx σ e.nonce t) h.2.2
  have hp := guarded_pairwise hg
  rw [List.pairwise_append] at hp
  refine (hp.2.2 a' ?_ a (by simp)).1
  unfold Spec.previousParams
  refine List.mem_filterMap.2 ⟨_, run_mem vk ctx σ hk, ?_⟩
  rw [h'.1, respond_submit h'.2]
  simp only [hn, if_true]

/-- What the run depends on -/
theorem run_congr {vk ctx : Bytes} {σ : Poplar1Strategy} (hctx : ctx.length + 8 < 2 ^ 16) (hvk : vk.length = 32)
    (H : SameElsewhere ctx T T') {t : ℕ}
    (hq : ∀ k < t, ∀ m, moveAt P prims fuel T vk ctx σ k = .query m → T' m = T m)
    (hv : ∀ k < t, ∀ e a, VerifiedAt P prims fuel T vk ctx σ k e a → a.1 < 2 ^ 16 →
      T' (verifyRandInput vk ctx e.nonce a.1) = T (verifyRandInput vk ctx e.nonce a.1)) :
    poplar1Run P (withOracle prims T') fuel vk ctx σ t = poplar1Run P (withOracle prims T) fuel vk ctx σ t := by
  induction t with
  | zero => rfl
  | succ t ih =>
    have ih := ih (fun k hk => hq k (by omega)) (fun k hk => hv k (by omega))
    have hq := hq t (by omega)
    have hv := hv t (by omega)
    have hm : moveAt P prims fuel T' vk ctx σ t = moveAt P prims fuel T vk ctx σ t := by
      unfold moveAt
      rw [ih]
    rw [run_succ, run_succ, ih, hm]
    congr 3
    cases h : moveAt P prims fuel T vk ctx σ t with
    | query m =>
      simp only [Spec.poplar1Respond, withOracle, if_true, hq m h]
    | submit e a =>
      by_cases hc : e.nonce.length = 16 ∧ isValid a (previousParams e.nonce (poplar1Run P (withOracle prims T) fuel vk ctx σ t)) =
          .ok true
      · rw [respond_submit hc, respond_submit hc]
        have hv := hv e a ⟨h, hc⟩
        have h1 : ∀ o, poplar1Outputs P (withOracle prims T') fuel vk ctx e a = .ok o ↔
            poplar1Outputs P (withOracle prims T) fuel vk ctx e a = .ok o := by
          intro o
          constructor
          · refine outputs_mono hctx hvk hvk (fun s d b h1 h2 h3 => (H s d b h1 h2 h3).symm) fun hl κ n r => ?_
            rw [hv hl]
            exact id
          · refine outputs_mono hctx hvk hvk H fun hl κ n r => ?_
            rw [hv hl]
            exact id
        congr 1
        cases h2 : poplar1Outputs P (withOracle prims T) fuel vk ctx e a with
        | ok o => rw [(h1 o).2 h2]
        | error e =>
          cases h3 : poplar1Outputs P (withOracle prims T') fuel vk ctx _ a with
          | ok o => rw [(h1 o).1 h3] at h2; cases h2
          | error e => rfl
      · rw [respond_refused hc, respond_refused hc]

end Vdaf.Poplar1
