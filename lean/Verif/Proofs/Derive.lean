import Verif.Spec.Derive
import Verif.Proofs.Poplar1Sound

/-! Streams, rejection sampling on streams, and the derivations of the IDPF. -/

namespace Vdaf
open Spec

section
variable {F : Type} [PyField F]

theorem Samples.append {s : ℕ → UInt8} {a b c : ℕ} {v w : List F} (h : Samples F s a v b)
    (h' : Samples F s b w c) : Samples F s a (v ++ w) c := by
  induction h with
  | done pos => exact h'
  | accept pos x v pos' h1 _ ih => exact .accept _ _ _ _ h1 (ih h')
  | reject pos x v pos' h1 _ ih => exact .reject _ _ _ _ h1 (ih h')

/-- Sampling is a function. -/
theorem Samples.unique {s : ℕ → UInt8} {a b b' : ℕ} {v v' : List F} (h : Samples F s a v b)
    (h' : Samples F s a v' b') (hl : v.length = v'.length) : v = v' ∧ b = b' := by
  induction h generalizing v' with
  | done pos =>
    cases h' with
    | done => exact ⟨rfl, rfl⟩
    | accept => simp at hl
    | reject => simp at hl
  | accept pos x v pos' h1 _ ih =>
    cases h' with
    | done => simp at hl
    | accept _ x' v' _ h2 h3 =>
      rw [h1] at h2
      cases h2
      obtain ⟨rfl, rfl⟩ := ih h3 (by simpa using hl)
      exact ⟨rfl, rfl⟩
    | reject _ x' v' _ h2 h3 =>
      rw [h1] at h2
      cases h2
  | reject pos x v pos' h1 _ ih =>
    cases h' with
    | done => simp at hl
    | accept _ x' v' _ h2 h3 =>
      rw [h1] at h2
      cases h2
    | reject _ x' v' _ h2 h3 => exact ih h3 (by simpa using hl)

/-- A XOF whose state is a position in a stream, up to some limit -/
def Streams (X : Xof) (s : ℕ → UInt8) (st : ℕ → X.State) (lim : ℕ) : Prop :=
  ∀ pos n, pos + n ≤ lim → X.next (st pos) n = .ok (bytesAt s pos n, st (pos + n))

theorem sample_eq (c : Bytes) (n : ℕ)
    (hn : nextPowerOf2 (PyField.modulus F) = .ok n) :
    sample F c = if fromLeBytes c &&& (n - 1) < PyField.modulus F then
      some ((fromLeBytes c &&& (n - 1) : ℕ) : F) else none := by
  rw [nextPowerOf2_of_pos (modulus_pos _)] at hn
  cases hn
  rw [land_mask]
  rfl

theorem nextVecLoop_samples {X : Xof} {s : ℕ → UInt8} {at_ : ℕ → X.State} {lim n : ℕ}
    (hs : Streams X s at_ lim) {m : ℕ} (hm : nextPowerOf2 (PyField.modulus F) = .ok m) (fuel pos : ℕ)
    (hlim : pos + fuel * PyField.encSize F ≤ lim) (vec v : List F) (st' : X.State) (hv : vec.length ≤ n)
    (h : X.nextVecLoop F (m - 1) n fuel (at_ pos) vec = .ok (v, st')) :
    ∃ w pos', v = vec ++ w ∧ v.length = n ∧ st' = at_ pos' ∧ Samples F s pos w pos' ∧
      pos' ≤ pos + fuel * PyField.encSize F := by
  induction fuel generalizing pos vec with
  | zero =>
    unfold Xof.nextVecLoop at h
    split at h
    · cases h
    · cases h
      exact ⟨[], pos, by simp, by omega, rfl, .done _, by omega⟩
  | succ fuel ih =>
    unfold Xof.nextVecLoop at h
    split at h
    · next hlt =>
      rw [Nat.add_mul, one_mul] at hlim
      rw [hs pos _ (by omega)] at h
      simp only [Except.ok_bind'] at h
      have hsm := sample_eq (F := F) (bytesAt s pos (PyField.encSize F)) m hm
      split at h
      · next hx =>
        rw [ofInt_nat hx] at h
        simp only [Except.ok_bind'] at h
        obtain ⟨w, pos', h1, h2, h3, h4, h5⟩ := ih _ (by omega) _ (by simp; omega) h
        rw [if_pos hx] at hsm
        refine ⟨_ :: w, pos', ?_, h2, h3, .accept _ _ _ _ hsm h4, ?_⟩
        · rw [h1, List.append_assoc]; rfl
        · rw [Nat.add_mul, one_mul]; omega
      · next hx =>
        obtain ⟨w, pos', h1, h2, h3, h4, h5⟩ := ih _ (by omega) _ hv h
        rw [if_neg hx] at hsm
        cases w with
        | nil => rw [List.append_nil] at h1; subst h1; omega
        | cons y w =>
          refine ⟨_, pos', h1, h2, h3, .reject _ _ _ _ hsm h4, ?_⟩
          rw [Nat.add_mul, one_mul]; omega
    · cases h
      exact ⟨[], pos, by simp, by omega, rfl, .done _, by omega⟩

theorem nextVec_samples {X : Xof} {s : ℕ → UInt8} {at_ : ℕ → X.State} {lim n : ℕ}
    (hs : Streams X s at_ lim) {fuel pos : ℕ} (hlim : pos + fuel * PyField.encSize F ≤ lim) {v : List F}
    {st' : X.State} (h : X.nextVec F fuel (at_ pos) n = .ok (v, st')) :
    v.length = n ∧ ∃ pos', st' = at_ pos' ∧ Samples F s pos v pos' := by
  unfold Xof.nextVec at h
  rw [Except.bind_eq_ok] at h
  obtain ⟨m, hm, h⟩ := h
  obtain ⟨w, pos', h1, h2, h3, h4, -⟩ := nextVecLoop_samples hs hm fuel pos hlim [] v st' (Nat.zero_le _) h
  rw [List.nil_append] at h1
  subst h1
  exact ⟨h2, pos', h3, h4⟩

/-- TurboSHAKE has no limit. -/
theorem turbo_streams (prims : Prims) (fuel : ℕ) (m : Bytes) (lim : ℕ) :
    Streams (XofTurboShake128 prims fuel) (prims.turboShake m 1) (fun pos => (⟨m, pos⟩ : TurboShakeState)) lim :=
  fun _ _ _ => rfl

theorem turbo_nextVec {prims : Prims} {fuel f : ℕ} {m : Bytes} {pos n : ℕ} {v : List F}
    {st' : (XofTurboShake128 prims fuel).State}
    (h : (XofTurboShake128 prims fuel).nextVec F f (⟨m, pos⟩ : TurboShakeState) n = .ok (v, st')) :
    v.length = n ∧ ∃ pos', st' = (⟨m, pos'⟩ : TurboShakeState) ∧ Samples F (prims.turboShake m 1) pos v pos' :=
  nextVec_samples (turbo_streams prims fuel m _) le_rfl h

theorem turbo_init_ok {prims : Prims} {fuel : ℕ} {seed dst binder : Bytes}
    {st : (XofTurboShake128 prims fuel).State} (h : (XofTurboShake128 prims fuel).init seed dst binder = .ok st) :
    dst.length < 2 ^ 16 ∧ st = (⟨turboInput seed dst binder, 0⟩ : TurboShakeState) := by
  rw [turbo_init] at h
  split at h
  · next h1 =>
    split at h
    · cases h; exact ⟨h1, rfl⟩
    · cases h
  · cases h

theorem turbo_expand {prims : Prims} {fuel n : ℕ} {seed dst binder : Bytes} {v : List F}
    (h : (XofTurboShake128 prims fuel).expandIntoVec F seed dst binder n = .ok v) :
    v.length = n ∧ ∃ pos', Samples F (turboStream prims seed dst binder) 0 v pos' := by
  unfold Xof.expandIntoVec at h
  rw [Except.bind_eq_ok] at h
  obtain ⟨st, h1, h⟩ := h
  rw [Except.bind_eq_ok] at h
  obtain ⟨⟨v', st'⟩, h2, h⟩ := h
  cases h
  obtain ⟨-, rfl⟩ := turbo_init_ok h1
  obtain ⟨h3, pos', -, h4⟩ := turbo_nextVec h2
  exact ⟨h3, pos', h4⟩

end

theorem aes_streams (prims : Prims) (fuel : ℕ) (key seed : Bytes) (hs : seed.length = 16) (lim : ℕ)
    (hl : lim < 16 * 2 ^ 128) :
    Streams (XofFixedKeyAes128 prims fuel) (aesByte prims key seed)
      (fun pos => (⟨pos, key, seed⟩ : FixedKeyAesState)) lim :=
  fun pos n h => aes_next prims fuel key seed hs pos n (by omega)

theorem formatDst_idpf {u : ℕ} (hu : u < 256) : formatDst 1 0 u = .ok [18, 1, 0, 0, 0, 0, 0, UInt8.ofNat u] := by
  unfold formatDst
  rw [show toBeBytes VERSION 1 = .ok [18] from rfl, show toBeBytes (1 : ℕ) 1 = .ok [1] from rfl,
    show toBeBytes (0 : ℕ) 4 = .ok [0, 0, 0, 0] from rfl, toBeBytes_nat (by omega)]
  simp only [Except.ok_bind', Except.pure_eq', concat, natToLe, List.flatten_cons, List.flatten_nil,
    List.reverse_cons, List.reverse_nil, List.nil_append, List.cons_append, List.append_nil]
  rw [Nat.div_eq_of_lt hu]
  simp
  apply UInt8.toNat_inj.1; simp

namespace Idpf
variable {I : Idpf} {prims : Prims} {fuel : ℕ}

/-- The XOF of a level is a position in the stream of the level. -/
theorem currentXof_streams (I : Idpf) (prims : Prims) (fuel level usage : ℕ) {seed ctx : Bytes} (nonce : Bytes)
    (hs : seed.length = 16) (hc : CtxOk ctx) (lim : ℕ) (hl : lim < 16 * 2 ^ 128) :
    ∃ at_, (I.currentXof prims fuel level).init seed (idpfTag usage ctx) nonce = .ok (at_ 0) ∧
      Streams (I.currentXof prims fuel level) (idpfStream prims I.bits level usage seed ctx nonce) at_ lim := by
  have hd : (idpfTag usage ctx).length < 2 ^ 16 := by
    unfold CtxOk at hc
    simp only [idpfTag, List.length_append, List.length_cons, List.length_nil]
    omega
  by_cases h : level < I.bits - 1
  · have e1 : idpfStream prims I.bits level usage seed ctx nonce =
        fixedKeyStream prims seed (idpfTag usage ctx) nonce := if_pos (by omega)
    rw [show I.currentXof prims fuel level = XofFixedKeyAes128 prims fuel from if_pos h, e1]
    exact ⟨_, aes_init prims fuel seed _ nonce hs hd, aes_streams prims fuel _ seed hs lim hl⟩
  · have e1 : idpfStream prims I.bits level usage seed ctx nonce =
        turboStream prims seed (idpfTag usage ctx) nonce := if_neg (by omega)
    rw [show I.currentXof prims fuel level = XofTurboShake128 prims fuel from if_neg h, e1]
    refine ⟨_, ?_, turbo_streams prims fuel _ lim⟩
    rw [turbo_init, if_pos hd, if_pos (by rw [hs]; decide)]
    rfl

theorem ctrlBit_eq {s : Bytes} (h : s.length ≠ 0) : ctrlBit s = .ok (clearBit s, lowBit s) := by
  cases s with
  | nil => simp at h
  | cons b s =>
    unfold ctrlBit clearBit lowBit
    simp only [List.take_succ_cons, List.take_zero, List.map_cons, List.map_nil, List.drop_succ_cons, List.drop_zero,
      List.cons_append, List.nil_append, List.any_cons, List.any_nil, Bool.or_false]
    have h : ∀ n < 256, UInt8.ofNat n &&& 0xFE = UInt8.ofNat ((UInt8.ofNat n).toNat / 2 * 2) ∧
        (UInt8.ofNat n &&& 1 != 0) = decide ((UInt8.ofNat n).toNat % 2 = 1) := by decide +kernel
    have hb := h b.toNat b.toNat_lt
    rw [UInt8.ofNat_toNat] at hb
    rw [hb.1, hb.2]

theorem extend_eq (level : ℕ) {seed ctx : Bytes} (nonce : Bytes) (hs : seed.length = 16) (hc : CtxOk ctx) :
    let s := idpfStream prims I.bits level 0 seed ctx nonce
    I.extend prims fuel level seed ctx nonce =
      .ok ((clearBit (bytesAt s 0 16), clearBit (bytesAt s 16 16)),
        (lowBit (bytesAt s 0 16), lowBit (bytesAt s 16 16))) := by
  intro s
  obtain ⟨at_, h1, h2⟩ := I.currentXof_streams prims fuel level 0 nonce hs hc 32 (by decide)
  unfold extend
  rw [formatDst_idpf (by decide)]
  simp only [Except.ok_bind', KEY_SIZE]
  rw [show ([18, 1, 0, 0, 0, 0, 0, UInt8.ofNat 0] ++ ctx) = idpfTag 0 ctx from rfl, h1]
  simp only [Except.ok_bind']
  rw [h2 0 16 (by decide)]
  simp only [Except.ok_bind']
  rw [h2 (0 + 16) 16 (by decide)]
  simp only [Except.ok_bind']
  rw [ctrlBit_eq (by simp [bytesAt]), ctrlBit_eq (by simp [bytesAt])]
  rfl

theorem convert_eq (hf : fuel < 2 ^ 120) (level : ℕ) {seed ctx : Bytes} (nonce : Bytes) (hs : seed.length = 16)
    (hc : CtxOk ctx) {next : Bytes} {w : List (Fk (I.currentField level))}
    (h : I.convert prims fuel level seed ctx nonce = .ok (next, w)) :
    next = bytesAt (idpfStream prims I.bits level 1 seed ctx nonce) 0 16 ∧ w.length = I.valueLen ∧
      ∃ pos', Samples (Fk (I.currentField level)) (idpfStream prims I.bits level 1 seed ctx nonce) 16 w pos' := by
  obtain ⟨at_, h1, h2⟩ := I.currentXof_streams prims fuel level 1 nonce hs hc (16 + fuel * 32) (by omega)
  unfold convert at h
  rw [formatDst_idpf (by decide)] at h
  simp only [Except.ok_bind', KEY_SIZE] at h
  rw [show ([18, 1, 0, 0, 0, 0, 0, UInt8.ofNat 1] ++ ctx) = idpfTag 1 ctx from rfl, h1] at h
  simp only [Except.ok_bind'] at h
  rw [h2 0 16 (by omega)] at h
  simp only [Except.ok_bind'] at h
  rw [Except.bind_eq_ok] at h
  obtain ⟨⟨w', st'⟩, h3, h⟩ := h
  cases h
  rw [currentXof_fuel, Nat.zero_add] at h3
  obtain ⟨h4, pos', -, h5⟩ := nextVec_samples h2 (by
    have := Nat.mul_le_mul_left fuel (encSize_le (I.currentField level)); omega) h3
  exact ⟨rfl, h4, pos', h5⟩

theorem forFold_error_or_len {α β : Type} (l : List α) (f : List β → α → Res (List β))
    (hf : ∀ y a y', f y a = .ok y' → y'.length = y.length) {y y' : List β} (h : forFold l y f = .ok y') :
    y'.length = y.length := by
  induction l generalizing y with
  | nil => cases h; rfl
  | cons a l ih =>
    rw [forFold_cons, Except.bind_eq_ok] at h
    obtain ⟨y1, h1, h2⟩ := h
    rw [ih h2, hf _ _ _ h1]

theorem evalPrefix_row {level : ℕ} {aggId : ℕ} {pub : List CorrectionWord} {key ctx nonce : Bytes} {p : List Bool}
    {y : List (Fk (I.currentField level))}
    (h : I.evalPrefix prims fuel aggId pub key level ctx nonce p = .ok y) : y.length = I.valueLen := by
  unfold evalPrefix at h
  simp only [Except.bind_eq_ok] at h
  obtain ⟨_, -, ⟨seed, ctrl⟩, -, bit, -, cw, -, ⟨a, b, z⟩, h1, h2⟩ := h
  dsimp only at h2
  have hz : z.length = I.valueLen := by
    unfold evalNext at h1
    simp only [Except.bind_eq_ok] at h1
    obtain ⟨⟨s, t⟩, -, ⟨ns, w⟩, h3, h5⟩ := h1
    have hw : w.length = I.valueLen := by
      unfold convert at h3
      simp only [Except.bind_eq_ok] at h3
      obtain ⟨d, -, x, -, ⟨n1, x1⟩, -, ⟨w', x2⟩, h6, h7⟩ := h3
      cases h7
      obtain ⟨-, -, -, -, h, -⟩ := (nextVec_ok _ _ _ _ _).1 h6
      exact h
    dsimp only at h5
    generalize pick _ bit = nc at h5
    cases nc
    · cases h5; exact hw
    · rw [if_pos rfl] at h5
      simp only [Except.bind_eq_ok] at h5
      obtain ⟨z', h4, h5⟩ := h5
      cases h5
      rw [forFold_error_or_len _ _ ?_ h4, hw]
      intro y i y' h
      simp only [Except.bind_eq_ok] at h
      obtain ⟨yi, -, wi, -, h⟩ := h
      rw [(setI_eq_ok.1 h).2, List.length_set]
  split at h2
  · cases h2; exact hz
  · cases h2; simpa [vecNeg] using hz

theorem eval_rows {I : Idpf} {j : ℤ} {pub : List CorrectionWord} {key : Bytes} {level : ℤ} {prefixes : List (List Bool)}
    {ctx nonce : Bytes} {value} (h : I.eval prims fuel j pub key level prefixes ctx nonce = .ok value) :
    value.length = prefixes.length ∧ ∀ row ∈ value, row.length = I.valueLen := by
  unfold eval at h
  simp only [Except.bind_eq_ok] at h
  obtain ⟨_, -, _, -, _, -, h⟩ := h
  refine ⟨mapRes_length h, fun row hr => ?_⟩
  obtain ⟨i, hi, rfl⟩ := List.mem_iff_getElem.1 hr
  rw [mapRes_ok_iff] at h
  exact evalPrefix_row (h.get (by rw [h.length_eq]; exact hi) hi)

theorem clearBit_length {s : Bytes} : (clearBit s).length = s.length := by
  cases s <;> simp [clearBit]

theorem bytesAt_length (s : ℕ → UInt8) (pos n : ℕ) : (bytesAt s pos n).length = n := by simp [bytesAt]

/-- `child`, with the extended seed spelled out -/
theorem child_spec {level : ℕ} {seed ctx : Bytes} {nonce : Bytes} (hs : seed.length = 16) (hc : CtxOk ctx)
    (ctrl bit : Bool) (cw : CorrectionWord) {s : Bytes × Bytes} {t : Bool × Bool}
    (h : I.extend prims fuel level seed ctx nonce = .ok (s, t)) :
    child s t ctrl bit cw = (childSeed prims I.bits ctx nonce level seed ctrl bit cw,
      childCtrl prims I.bits ctx nonce level seed ctrl bit cw) := by
  have := (extend_eq level nonce hs hc).symm.trans h
  cases this
  unfold child genKeep pick childSeed childCtrl xor
  cases ctrl <;> cases bit <;> simp

theorem childSeed_length {level : ℕ} {seed ctx nonce : Bytes} {ctrl bit : Bool} {cw : CorrectionWord}
    (h : cw.seedCw.length = 16) : (childSeed prims I.bits ctx nonce level seed ctrl bit cw).length = 16 := by
  unfold childSeed
  dsimp only
  split <;> simp [clearBit_length, bytesAt_length, h]

theorem evalNext_spec (hf : fuel < 2 ^ 120) {level : ℕ} {seed ctx nonce : Bytes} (hs : seed.length = 16)
    (hc : CtxOk ctx) {ctrl bit : Bool} {cw : CorrectionWord} (hcw : cw.seedCw.length = 16) {next : Bytes} {nc : Bool}
    {y : List (Fk (I.currentField level))}
    (h : I.evalNext prims fuel seed ctrl cw level bit ctx nonce = .ok (next, nc, y)) :
    next = bytesAt (idpfStream prims I.bits level 1 (childSeed prims I.bits ctx nonce level seed ctrl bit cw) ctx nonce)
      0 16 ∧ nc = childCtrl prims I.bits ctx nonce level seed ctrl bit cw ∧
    ∃ w, RawValue prims I.bits I.valueLen ctx nonce level seed ctrl bit cw _ w ∧
      y = if nc then List.zipWith (· + ·) w (castVec _ cw.wCw) else w := by
  obtain ⟨s, t, e, -, -⟩ := I.extend_ok prims fuel level nonce hs hc
  rw [evalNext_eq, e] at h
  simp only [Except.ok_bind'] at h
  rw [child_spec hs hc _ _ _ e] at h
  unfold finish at h
  rw [Except.bind_eq_ok] at h
  obtain ⟨⟨ns, w⟩, h1, h⟩ := h
  obtain ⟨e1, e2, e3⟩ := convert_eq hf level nonce (childSeed_length hcw) hc h1
  dsimp only at h
  generalize hn : childCtrl prims I.bits ctx nonce level seed ctrl bit cw = c at h
  cases c
  · cases h
    exact ⟨e1, rfl, _, ⟨e2, e3⟩, rfl⟩
  · rw [if_pos rfl, Except.bind_eq_ok] at h
    obtain ⟨z, h2, h⟩ := h
    cases h
    refine ⟨e1, rfl, w, ⟨e2, e3⟩, ?_⟩
    rw [if_pos rfl]
    by_cases hl : w.length ≤ (castVec (I.currentField level) cw.wCw).length
    · rw [addLoop _ _ hl] at h2
      exact (Except.ok.inj h2).symm
    · exfalso
      rw [not_le] at hl
      have : (castVec (I.currentField level) cw.wCw).length ∈ List.range w.length := List.mem_range.2 hl
      obtain ⟨l1, l2, hl12⟩ := List.append_of_mem this
      rw [hl12, forFold_append, Except.bind_eq_ok] at h2
      obtain ⟨z', -, h2⟩ := h2
      rw [forFold_cons, Except.bind_eq_ok] at h2
      obtain ⟨z'', h2, -⟩ := h2
      simp only [Except.bind_eq_ok] at h2
      obtain ⟨-, -, wi, h2, -⟩ := h2
      have := (List.getElem?_eq_some_iff.1 (getI_eq_ok.1 h2)).1
      omega

theorem walk_node (hf : fuel < 2 ^ 120) {ctx nonce key : Bytes} (hc : CtxOk ctx) (hk : key.length = 16)
    {pub : List CorrectionWord} (hp : ∀ cw ∈ pub, cw.seedCw.length = 16) {j : ℕ} (hj : j < 2) {p : List Bool}
    {ℓ : ℕ} (hℓ : ℓ ≤ p.length) {seed : Bytes} {ctrl : Bool}
    (h : I.walk prims fuel j pub key p ctx nonce ℓ = .ok (seed, ctrl)) :
    seed.length = 16 ∧ Node prims I.bits ctx nonce pub key j (p.take ℓ) seed ctrl := by
  induction ℓ generalizing seed ctrl with
  | zero =>
    cases h
    refine ⟨hk, ?_⟩
    have : decide (j ≠ 0) = (j == 1) := by
      rcases (show j = 0 ∨ j = 1 by omega) with rfl | rfl <;> rfl
    rw [this]
    exact .root
  | succ ℓ ih =>
    rw [walk_succ, Except.bind_eq_ok] at h
    obtain ⟨⟨seed0, ctrl0⟩, h1, h⟩ := h
    obtain ⟨ih1, ih2⟩ := ih (by omega) h1
    unfold evalStep at h
    simp only [Except.bind_eq_ok] at h
    obtain ⟨bit, hb, cw, hcw, ⟨ns, nc, y⟩, he, h⟩ := h
    cases h
    obtain ⟨hb1, rfl⟩ := List.getElem?_eq_some_iff.1 (getI_eq_ok.1 hb)
    obtain ⟨hc1, rfl⟩ := List.getElem?_eq_some_iff.1 (getI_eq_ok.1 hcw)
    obtain ⟨rfl, rfl, -⟩ := evalNext_spec hf ih1 hc (hp _ (List.getElem_mem _)) he
    refine ⟨bytesAt_length _ _ _, ?_⟩
    have := Node.child _ _ _ p[ℓ] pub[ℓ] ih2 (by simp [show ℓ ≤ p.length by omega])
    rw [List.length_take_of_le (by omega)] at this
    rw [List.take_succ_eq_append_getElem hb1]
    exact this

theorem eval_node (hf : fuel < 2 ^ 120) {ctx nonce key : Bytes} (hc : CtxOk ctx) (hk : key.length = 16)
    {pub : List CorrectionWord} (hp : ∀ cw ∈ pub, cw.seedCw.length = 16) {j level : ℕ} (hj : j < 2) {p : List Bool}
    {y : List (Fk (I.currentField level))}
    (h : I.evalPrefix prims fuel j pub key level ctx nonce p = .ok y) :
    NodeValue prims I.bits I.valueLen ctx nonce pub key j p _ y := by
  have hl : p.length = level + 1 := by
    unfold evalPrefix at h
    rw [Except.bind_eq_ok] at h
    obtain ⟨_, h1, -⟩ := h
    rw [raiseIf_eq_ok, decide_eq_false_iff_not, not_not] at h1
    exact h1
  rw [evalPrefix_eq _ _ _ _ _ _ _ _ _ hl, Except.bind_eq_ok] at h
  obtain ⟨z, h, hy⟩ := h
  unfold evalRaw at h
  simp only [Except.bind_eq_ok] at h
  obtain ⟨⟨seed, ctrl⟩, h1, bit, hb, cw, hcw, ⟨ns, nc, z'⟩, he, h⟩ := h
  cases h
  obtain ⟨hb1, rfl⟩ := List.getElem?_eq_some_iff.1 (getI_eq_ok.1 hb)
  obtain ⟨hc1, rfl⟩ := List.getElem?_eq_some_iff.1 (getI_eq_ok.1 hcw)
  obtain ⟨n1, n2⟩ := walk_node hf hc hk hp hj (by omega) h1
  obtain ⟨-, rfl, w, hw, rfl⟩ := evalNext_spec hf n1 hc (hp _ (List.getElem_mem _)) he
  have hq : (p.take level).length = level := by simp; omega
  refine ⟨p.take level, seed, ctrl, p[level], pub[level], w, ?_, n2, ?_, ?_, ?_⟩
  · rw [← List.take_succ_eq_append_getElem hb1, ← hl, List.take_length]
  · rw [hq]; exact List.getElem?_eq_getElem _
  · rw [hq]; exact hw
  · rw [hq]
    exact (Except.ok.inj hy).symm

/-- The correction words -/
theorem GenRun.spec (hf : fuel < 2 ^ 120) {ctx nonce key0 key1 : Bytes} (hc : CtxOk ctx) (hk0 : key0.length = 16)
    (hk1 : key1.length = 16) {alpha : List Bool} {beta : (level : ℕ) → List (Fk (I.currentField level))} {n : ℕ}
    {pub : List CorrectionWord} {N : ℕ → (Bytes × Bytes) × (Bool × Bool)}
    (h : GenRun I prims fuel alpha beta ctx nonce key0 key1 n pub N) (ℓ : ℕ) (hℓ : ℓ ≤ n) (hα : n ≤ alpha.length) :
    (N ℓ).1.1.length = 16 ∧ (N ℓ).1.2.length = 16 ∧
    Node prims I.bits ctx nonce pub key0 0 (alpha.take ℓ) (N ℓ).1.1 (N ℓ).2.1 ∧
    Node prims I.bits ctx nonce pub key1 1 (alpha.take ℓ) (N ℓ).1.2 (N ℓ).2.2 := by
  induction ℓ with
  | zero =>
    rw [h.zero]
    exact ⟨hk0, hk1, .root, .root⟩
  | succ ℓ ih =>
    obtain ⟨i1, i2, i3, i4⟩ := ih (by omega)
    obtain ⟨bit, cw, ha, hcw, hs⟩ := h.step ℓ (by omega)
    obtain ⟨s0, t0, s1, t1, w0, w1, w, h1, h2, h3, h4, h5, h6, h7, h8, h9, h10, h11, h12, h13, h14,
      h15, h16, h17, h18⟩ := hs.ex
    have lcw : cw.seedCw.length = 16 := by
      rw [h7, xor_length, pick_length h3 h4, pick_length h5 h6]; rfl
    rw [child_spec i1 hc _ _ _ h1] at h10 h12
    rw [child_spec i2 hc _ _ _ h2] at h11 h13
    obtain ⟨e0, -⟩ := convert_eq hf ℓ nonce (childSeed_length lcw) hc h10
    obtain ⟨e1, -⟩ := convert_eq hf ℓ nonce (childSeed_length lcw) hc h11
    have hb : bit = alpha[ℓ] := by
      obtain ⟨_, rfl⟩ := List.getElem?_eq_some_iff.1 ha; rfl
    have hl : (alpha.take ℓ).length = ℓ := by simp; omega
    have c0 := Node.child _ _ _ bit cw i3 (by rw [hl]; exact hcw)
    have c1 := Node.child _ _ _ bit cw i4 (by rw [hl]; exact hcw)
    rw [hl] at c0 c1
    rw [List.take_succ_eq_append_getElem (by omega), ← hb, e0, e1, ← h12, ← h13]
    exact ⟨bytesAt_length _ _ _, bytesAt_length _ _ _, c0, c1⟩

/-- A list of pairs -/
theorem rows_two {α : Type} (value : List (List α)) (h : ∀ row ∈ value, row.length = 2) :
    ∃ ds hs : List α, ds.length = value.length ∧ hs.length = value.length ∧
      value = List.zipWith (fun d h => [d, h]) ds hs := by
  induction value with
  | nil => exact ⟨[], [], rfl, rfl, rfl⟩
  | cons row value ih =>
    obtain ⟨ds, hs, h1, h2, h3⟩ := ih fun r hr => h r (List.mem_cons_of_mem _ hr)
    obtain ⟨d, e, rfl⟩ := Poplar1.list_two (h row List.mem_cons_self)
    exact ⟨d :: ds, e :: hs, by simp [h1], by simp [h2], by rw [List.zipWith_cons_cons, ← h3]⟩

end Idpf

namespace Poplar1
variable {P : Poplar1} {prims : Prims} {fuel : ℕ}

theorem dst_eq {usage : ℕ} {ctx d : Bytes} (h : dst usage ctx = .ok d) : d = Spec.tag 6 usage ctx :=
  (Prio3.tag_ok_iff.1 h).2.2.symm ▸ rfl

theorem byte_eq {j : ℕ} {b : Bytes} (h : byte j = .ok b) : b = [UInt8.ofNat j] := (Prio3.byte_ok_iff.1 h).2.symm ▸ rfl

theorem corrShares_at {ctx nonce seed : Bytes} {j level : ℕ} {v : List (Fk (P.idpf.currentField level))}
    (h : P.corrShares prims fuel ctx j level nonce seed = .ok v) :
    CorrAt prims P.idpf.bits seed ctx nonce j level _ v := by
  unfold corrShares corrXof at h
  by_cases hl : level < P.idpf.bits - 1
  · rw [if_pos hl] at h
    simp only [Except.bind_eq_ok] at h
    obtain ⟨x1, ⟨tag, h1, b, h2, x0, h3, ⟨before, x1'⟩, h4, h5⟩, ⟨v', x2⟩, h6, h7⟩ := h
    cases h5
    cases h7
    have := dst_eq h1
    subst this
    have := byte_eq h2
    subst this
    obtain ⟨-, rfl⟩ := turbo_init_ok h3
    obtain ⟨l1, pos, rfl, s1⟩ := turbo_nextVec h4
    obtain ⟨l2, pos', -, s2⟩ := turbo_nextVec h6
    have hκ := Idpf.currentField_inner hl
    clear h4 h6
    generalize P.idpf.currentField level = κ at hκ v' before l1 l2 s1 s2
    subst hκ
    exact ⟨by omega, before, pos, pos', l1, l2, s1, s2⟩
  · rw [if_neg hl] at h
    simp only [Except.bind_eq_ok] at h
    obtain ⟨x1, ⟨tag, h1, b, h2, h3⟩, ⟨v', x2⟩, h6, h7⟩ := h
    cases h7
    have := dst_eq h1
    subst this
    have := byte_eq h2
    subst this
    obtain ⟨-, rfl⟩ := turbo_init_ok h3
    obtain ⟨l2, pos', -, s2⟩ := turbo_nextVec h6
    have hκ := Idpf.currentField_leaf hl
    clear h6
    generalize P.idpf.currentField level = κ at hκ v' l2 s2
    subst hκ
    exact ⟨by omega, pos', l2, s2⟩

theorem verifyRand_at {vk ctx nonce : Bytes} {level n : ℕ} {r : List (Fk (P.idpf.currentField level))}
    (h : P.verifyRand prims fuel vk ctx nonce level n = .ok r) :
    r.length = n ∧ ∃ pos', Samples _ (verifyStream prims vk ctx nonce level) 0 r pos' :=
  turbo_expand (verifyRand_eq h)

theorem abShares_eq (level : ℕ) (s : Poplar1InputShare) (κ : Kind) :
    abShares level s.corrInner s.corrLeaf κ = abAt s level κ := by
  cases κ
  · show slice s.corrInner (2 * level) (2 * (level + 1)) = (s.corrInner.drop (2 * level)).take 2
    unfold slice
    rw [List.drop_take]
    congr 1
    omega
  · rfl

theorem shard_inv {ctx nonce rand : Bytes} {alpha : List Bool} {r}
    (h : P.shard prims fuel ctx alpha nonce rand = .ok r) :
    nonce.length = 16 ∧ rand.length = 128 ∧ Idpf.CtxOk ctx ∧ alpha.length = P.idpf.bits := by
  unfold shard at h
  rw [Except.bind_eq_ok] at h
  obtain ⟨_, h1, h⟩ := h
  rw [Except.bind_eq_ok] at h
  obtain ⟨_, h2, h⟩ := h
  rw [Except.bind_eq_ok] at h
  obtain ⟨-, -, h⟩ := h
  dsimp only at h
  rw [Except.bind_eq_ok] at h
  obtain ⟨⟨idpfRand, rest⟩, -, h⟩ := h
  dsimp only at h
  rw [Except.bind_eq_ok] at h
  obtain ⟨⟨corrSeed, seeds⟩, -, h⟩ := h
  dsimp only at h
  rw [Except.bind_eq_ok] at h
  obtain ⟨c0, -, h⟩ := h
  rw [Except.bind_eq_ok] at h
  obtain ⟨c1, -, h⟩ := h
  rw [Except.bind_eq_ok] at h
  obtain ⟨⟨s, s'⟩, -, h⟩ := h
  dsimp only at h
  rw [Except.bind_eq_ok] at h
  obtain ⟨sd, -, h⟩ := h
  rw [Except.bind_eq_ok] at h
  obtain ⟨tag, h3, h⟩ := h
  rw [Except.bind_eq_ok] at h
  obtain ⟨x, h4, h⟩ := h
  rw [Except.bind_eq_ok] at h
  obtain ⟨⟨ks, x1⟩, -, h⟩ := h
  dsimp only at h
  rw [Except.bind_eq_ok] at h
  obtain ⟨one, -, h⟩ := h
  rw [Except.bind_eq_ok] at h
  obtain ⟨one', -, h⟩ := h
  rw [Except.bind_eq_ok] at h
  obtain ⟨⟨kl, x2⟩, -, h⟩ := h
  dsimp only at h
  rw [Except.bind_eq_ok] at h
  obtain ⟨⟨pub, keys⟩, h5, -⟩ := h
  unfold Idpf.gen at h5
  rw [Except.bind_eq_ok] at h5
  obtain ⟨_, h6, -⟩ := h5
  have := dst_eq h3
  subst this
  have h7 := (turbo_init_ok h4).1
  refine ⟨?_, ?_, ?_, ?_⟩
  · have := raiseIf_eq_ok.1 h1
    rw [decide_eq_false_iff_not, not_not] at this
    exact this
  · have := raiseIf_eq_ok.1 h2
    have h : rand.length = randSize prims fuel := by simpa using this
    rw [h]; rfl
  · unfold Idpf.CtxOk
    simp only [Spec.tag, List.length_append, List.length_cons, List.length_nil] at h7
    omega
  · simpa using raiseIf_eq_ok.1 h6

/-- Three elements of a longer expansion -/
theorem corrAt_inner {seed ctx nonce : Bytes} {j level : ℕ} {u : List (Fk .inner)}
    (hl : level < P.idpf.bits - 1)
    (h : (xof prims fuel).expandIntoVec (Fk .inner) seed (Spec.tag 6 2 ctx) ([UInt8.ofNat j] ++ nonce)
      (3 * (P.idpf.bits - 1)) = .ok u) :
    CorrAt prims P.idpf.bits seed ctx nonce j level .inner (slice u (3 * level) (3 * level + 3)) := by
  unfold Xof.expandIntoVec at h
  rw [Except.bind_eq_ok] at h
  obtain ⟨st, h1, h⟩ := h
  rw [Except.bind_eq_ok] at h
  obtain ⟨⟨u', st'⟩, h2, h⟩ := h
  cases h
  rw [show 3 * (P.idpf.bits - 1) = 3 * level + (3 + 3 * (P.idpf.bits - 2 - level)) by omega] at h2
  obtain ⟨v, w, st1, e1, e2, rfl⟩ := nextVec_split _ _ _ _ _ _ _ h2
  obtain ⟨w1, w2, st2, e3, e4, rfl⟩ := nextVec_split _ _ _ _ _ _ _ e2
  obtain ⟨-, rfl⟩ := turbo_init_ok h1
  obtain ⟨l1, pos, rfl, s1⟩ := turbo_nextVec e1
  obtain ⟨l2, pos', -, s2⟩ := turbo_nextVec e3
  have hsl : slice (v ++ (w1 ++ w2)) (3 * level) (3 * level + 3) = w1 := by
    unfold slice
    rw [List.take_append, List.drop_append]
    simp [l1, l2]
  rw [hsl]
  exact ⟨by omega, v, pos, pos', l1, l2, s1, s2⟩

theorem corrRel_of {κ : Kind} {u0 u1 c0 c1 : List (Fk κ)} {k : Fk κ} (l0 : u0.length = 3) (l1 : u1.length = 3)
    (h : Rel κ (List.zipWith (· + ·) u0 u1) k c0 c1) : CorrRel u0 u1 k c0 c1 := by
  obtain ⟨a0, b0, c0', rfl⟩ := list_three l0
  obtain ⟨a1, b1, c1', rfl⟩ := list_three l1
  obtain ⟨a, b, c, A0, B0, A1, B1, e1, rfl, rfl, e2, e3⟩ := h
  simp only [List.zipWith_cons_cons, List.zipWith_nil_left, List.cons.injEq, and_true] at e1
  obtain ⟨rfl, rfl, rfl⟩ := e1
  exact ⟨_, _, _, _, _, _, _, _, _, _, rfl, rfl, rfl, rfl, e2, e3⟩

theorem sum_zipWith {F : Type} [PyField F] (f : F → F → F) (l m : List F) (h : l.length = m.length) :
    (List.zipWith f l m).sum = ∑ i ∈ Finset.range m.length, f (coef l i) (coef m i) := by
  induction l generalizing m with
  | nil =>
    cases m with
    | nil => simp
    | cons => simp at h
  | cons a l ih =>
    cases m with
    | nil => simp at h
    | cons b m =>
      rw [List.zipWith_cons_cons, List.sum_cons, ih m (by simpa using h), List.length_cons, Finset.sum_range_succ',
        add_comm]
      rfl

theorem ent_zip {κ : Kind} {ds hs : List (Fk κ)} (hl : ds.length = hs.length) {i : ℕ} (hi : i < ds.length) :
    ent (List.zipWith (fun d h => [d, h]) ds hs) i 0 = coef ds i ∧
      ent (List.zipWith (fun d h => [d, h]) ds hs) i 1 = coef hs i := by
  have hi' : i < hs.length := by omega
  unfold ent
  rw [List.getD_eq_getElem?_getD, List.getElem?_eq_getElem (by simp; omega)]
  simp only [List.getElem_zipWith, Option.getD_some]
  rw [coef_of_lt hi, coef_of_lt hi']
  exact ⟨rfl, rfl⟩

theorem sums_zip {κ : Kind} {ds hs r : List (Fk κ)} (hd : ds.length = r.length) (hh : hs.length = r.length)
    (corr : Fk κ × Fk κ × Fk κ) : sums corr (List.zipWith (fun d h => [d, h]) ds hs) r = corr + sketchOf ds hs r := by
  unfold sums sketchOf
  rw [sum_zipWith _ _ _ hd, sum_zipWith _ _ _ hd, sum_zipWith _ _ _ hh]
  refine Prod.ext ?_ (Prod.ext ?_ ?_)
  · show _ + _ = _ + _
    congr 1
    refine Finset.sum_congr rfl fun i hi => ?_
    rw [(ent_zip (by omega) (by have := Finset.mem_range.1 hi; omega)).1]
  · show _ + _ = _ + _
    congr 1
    refine Finset.sum_congr rfl fun i hi => ?_
    rw [(ent_zip (by omega) (by have := Finset.mem_range.1 hi; omega)).1]
  · show _ + _ = _ + _
    congr 1
    refine Finset.sum_congr rfl fun i hi => ?_
    rw [(ent_zip (by omega) (by have := Finset.mem_range.1 hi; omega)).2]

theorem outs_zip {κ : Kind} {ds hs : List (Fk κ)} (hl : ds.length = hs.length) :
    (tab ds.length fun i => ent (List.zipWith (fun d h => [d, h]) ds hs) i 0) = ds := by
  refine List.ext_getElem (by simp) fun i h1 h2 => ?_
  rw [tab_getElem, (ent_zip hl h2).1, coef_of_lt h2]

end Poplar1
end Vdaf
