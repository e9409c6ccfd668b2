import Verif.Proofs.IdpfReject
import Verif.Props.Derive

/-!
# Exact decisions: property C60 (the arguments that IDPF key generation accepts) and property C61 (the reports that
Poplar1 accepts)
-/

namespace Vdaf
open Spec

/-! ## C60 -/

/-- C60: arguments of the wrong size are rejected with `ValueError`, at once. -/
theorem C60_gen_rejects (prims : Prims) (fuel : ℕ) {valueLen bits : ℕ} {I : Idpf}
    (hI : Idpf.init valueLen bits = .ok I) (alpha : List Bool) (betaInner : List (List Field64))
    (betaLeaf : List Field255) (ctx nonce rand : Bytes)
    (h : alpha.length ≠ bits ∨ betaInner.length ≠ bits - 1 ∨ rand.length ≠ 32 ∨ nonce.length ≠ 16) :
    ∃ m, I.gen prims fuel alpha betaInner betaLeaf ctx nonce rand = .error (.value m) := by
  obtain ⟨rfl, -, -⟩ := Idpf.init_ok hI
  exact Idpf.gen_sizes h

/-- C60: if the value of some level does not have the length given to the constructor, then `gen` raises
`ValueError`, unless sampling the values of an earlier level does not end. -/
theorem C60_gen_rejects_values (prims : Prims) {fuel : ℕ} (hf : fuel < 2 ^ 120) {valueLen bits : ℕ} {I : Idpf}
    (hI : Idpf.init valueLen bits = .ok I) (alpha : List Bool) (betaInner : List (List Field64))
    (betaLeaf : List Field255) (ctx nonce rand : Bytes) (hctx : ctx.length + 8 < 2 ^ 16)
    (h : (∃ b ∈ betaInner, b.length ≠ valueLen) ∨ betaLeaf.length ≠ valueLen) :
    (∃ m, I.gen prims fuel alpha betaInner betaLeaf ctx nonce rand = .error (.value m)) ∨
    I.gen prims fuel alpha betaInner betaLeaf ctx nonce rand = .error .fuel := by
  obtain ⟨rfl, -, hb⟩ := Idpf.init_ok hI
  by_cases hs : alpha.length ≠ bits ∨ betaInner.length ≠ bits - 1 ∨ rand.length ≠ 32 ∨ nonce.length ≠ 16
  · exact .inl (Idpf.gen_sizes hs)
  · simp only [ne_eq, not_or, not_not] at hs
    rcases (Idpf.gen_any (I := ⟨valueLen, bits⟩) (prims := prims) (betaLeaf := betaLeaf) hf hctx hs.1 hs.2.1 hs.2.2.1
      hs.2.2.2 hb).cases with ⟨_, -, h1, h2⟩ | ⟨e, he, rfl | ⟨m, rfl⟩⟩
    · rcases h with ⟨b, hb, hne⟩ | hne
      · exact absurd (h1 b hb) hne
      · exact absurd h2 hne
    · exact .inr he
    · exact .inl ⟨m, he⟩

/-- C60: `gen` returns only for arguments of the right sizes, whatever the random bytes and the nonce; for those, it
returns or runs out of fuel (C31). -/
theorem C60_gen_accepts_only (prims : Prims) {fuel : ℕ} (hf : fuel < 2 ^ 120) {valueLen bits : ℕ} {I : Idpf}
    (hI : Idpf.init valueLen bits = .ok I) (alpha : List Bool) (betaInner : List (List Field64))
    (betaLeaf : List Field255) (ctx nonce rand : Bytes) (hctx : ctx.length + 8 < 2 ^ 16) :
    ((∃ r, I.gen prims fuel alpha betaInner betaLeaf ctx nonce rand = .ok r) ∨
      I.gen prims fuel alpha betaInner betaLeaf ctx nonce rand = .error .fuel ∨
      ∃ m, I.gen prims fuel alpha betaInner betaLeaf ctx nonce rand = .error (.value m)) ∧
    ((∃ r, I.gen prims fuel alpha betaInner betaLeaf ctx nonce rand = .ok r) →
      alpha.length = bits ∧ betaInner.length = bits - 1 ∧ (∀ b ∈ betaInner, b.length = valueLen) ∧
      betaLeaf.length = valueLen ∧ nonce.length = 16 ∧ rand.length = 32) := by
  by_cases hs : alpha.length ≠ bits ∨ betaInner.length ≠ bits - 1 ∨ rand.length ≠ 32 ∨ nonce.length ≠ 16
  · obtain ⟨m, hm⟩ := C60_gen_rejects prims fuel hI alpha betaInner betaLeaf ctx nonce rand hs
    refine ⟨.inr (.inr ⟨m, hm⟩), ?_⟩
    rintro ⟨r, hr⟩
    rw [hm] at hr
    cases hr
  · simp only [ne_eq, not_or, not_not] at hs
    obtain ⟨rfl, -, hb⟩ := Idpf.init_ok hI
    have hg := Idpf.gen_any (I := ⟨valueLen, bits⟩) (prims := prims) (betaLeaf := betaLeaf) hf hctx hs.1 hs.2.1 hs.2.2.1
      hs.2.2.2 hb
    refine ⟨?_, ?_⟩
    · rcases hg.cases with ⟨r, hr, -⟩ | ⟨e, he, rfl | ⟨m, rfl⟩⟩
      · exact .inl ⟨r, hr⟩
      · exact .inr (.inl he)
      · exact .inr (.inr ⟨m, he⟩)
    · rintro ⟨r, hr⟩
      obtain ⟨h1, h2⟩ := hg.elim hr
      exact ⟨hs.1, hs.2.1, h1, h2, hs.2.2.2, hs.2.2.1⟩

-- with two levels and values of length 2: accepted; a value that is too short at the second level, a measurement that
-- is too long and a nonce that is too short are rejected
example : (do
    let I ← Idpf.init 2 2
    let ok (alpha : List Bool) (bi : List (List Field64)) (bl : List Field255) (n : ℕ) : Bool :=
      match I.gen toyPrims 9 alpha bi bl [1] (List.replicate n 3) (List.replicate 32 7) with
      | .ok _ => true
      | .error _ => false
    return [ok [true, false] [[5, 6]] [7, 8] 16, ok [true, false] [[5, 6]] [7] 16, ok [true, false, true] [[5, 6]] [7, 8] 16,
      ok [true, false] [[5, 6]] [7, 8] 15]) = .ok [true, false, false, false] := by decide +kernel

/-! ## C61 -/

theorem sketchOf_add {F : Type} [PyField F] {ds0 hs0 ds1 hs1 r : List F} (h1 : ds0.length = r.length)
    (h2 : ds1.length = r.length) (h3 : hs0.length = r.length) (h4 : hs1.length = r.length) :
    sketchOf (List.zipWith (· + ·) ds0 ds1) (List.zipWith (· + ·) hs0 hs1) r =
      sketchOf ds0 hs0 r + sketchOf ds1 hs1 r := by
  have key : ∀ (g : F → F) (x y r : List F), x.length = r.length → y.length = r.length →
      (List.zipWith (fun d r => d * g r) (List.zipWith (· + ·) x y) r).sum =
        (List.zipWith (fun d r => d * g r) x r).sum + (List.zipWith (fun d r => d * g r) y r).sum := by
    intro g x
    induction x with
    | nil => intro y r h h'; cases r <;> simp_all
    | cons a x ih =>
      intro y r h h'
      cases r with
      | nil => simp at h
      | cons c r =>
        cases y with
        | nil => simp at h'
        | cons b y =>
          simp only [List.zipWith_cons_cons, List.sum_cons, ih y r (by simpa using h) (by simpa using h')]
          ring
  exact Prod.ext (key (fun x => x) _ _ _ h1 h2) (Prod.ext (key (fun x => x ^ 2) _ _ _ h1 h2)
    (key (fun x => x) _ _ _ h3 h4))

theorem isSum_two {F : Type} [PyField F] {x y : List F} (h : x.length = y.length) :
    IsSum ![x, y] (List.zipWith (· + ·) x y) := by
  refine isSum_iff.2 ⟨fun i => by fin_cases i <;> simp [h], fun j => ?_⟩
  simp only [Fin.sum_univ_two, Matrix.cons_val_zero, Matrix.cons_val_one]
  by_cases hj : j < x.length
  · rw [coef_of_lt (by simpa using ⟨hj, by omega⟩), coef_of_lt hj, coef_of_lt (by omega), List.getElem_zipWith]
  · simp [coef, hj, show ¬ j < y.length by omega]

/-- The rest of verification after `verify_init` -/
theorem poplar1Verify_of {P : Poplar1} {prims : Prims} {fuel : ℕ} {verifyKey ctx nonce : Bytes}
    {a : Poplar1AggParam} {pub : List CorrectionWord}
    {s0 s1 : Poplar1InputShare} {κ : Kind} {l : ℕ} {A0 B0 A1 B1 x0 y0 z0 x1 y1 z1 : Fk κ} {o0 o1 : List (Fk κ)}
    (h0 : P.verifyInit prims fuel verifyKey ctx 0 a nonce pub s0 =
      .ok (⟨.evaluate, l, ⟨κ, [A0, B0, ((0 : ℕ) : Fk κ)] ++ o0⟩⟩, ⟨κ, [x0, y0, z0]⟩))
    (h1 : P.verifyInit prims fuel verifyKey ctx 1 a nonce pub s1 =
      .ok (⟨.evaluate, l, ⟨κ, [A1, B1, ((1 : ℕ) : Fk κ)] ++ o1⟩⟩, ⟨κ, [x1, y1, z1]⟩)) :
    ((x0 + x1) ^ 2 - (y0 + y1) - (z0 + z1) + (A0 + A1) * (x0 + x1) + (B0 + B1) = 0 →
      poplar1Verify P prims fuel verifyKey ctx a nonce pub s0 s1 = .ok (⟨κ, o0⟩, ⟨κ, o1⟩)) ∧
    ((x0 + x1) ^ 2 - (y0 + y1) - (z0 + z1) + (A0 + A1) * (x0 + x1) + (B0 + B1) ≠ 0 →
      ∃ m, poplar1Verify P prims fuel verifyKey ctx a nonce pub s0 s1 = .error (.value m)) := by
  unfold poplar1Verify VdafImpl.verifyNextTuple Poplar1.vdaf
  rw [h0, h1]
  simp only [Except.ok_bind', Poplar1.message_three, Poplar1.next_evaluate, Poplar1.message_one]
  have hσ : (((0 : ℕ) : Fk κ) * ((x0 + x1) ^ 2 - (y0 + y1) - (z0 + z1)) + A0 * (x0 + x1) + B0) +
      (((1 : ℕ) : Fk κ) * ((x0 + x1) ^ 2 - (y0 + y1) - (z0 + z1)) + A1 * (x0 + x1) + B1) =
      (x0 + x1) ^ 2 - (y0 + y1) - (z0 + z1) + (A0 + A1) * (x0 + x1) + (B0 + B1) := by
    simp only [Nat.cast_zero, Nat.cast_one]
    ring
  constructor
  · intro h
    rw [if_pos (hσ.trans h)]
    rfl
  · intro h
    rw [if_neg (fun h' => h (hσ.symm.trans h'))]
    exact ⟨_, rfl⟩

/-- C61: the decision of Poplar1 on a report, whoever made it.  If both Aggregators complete `verify_init`, then, with
their triples `(a, b, c)` of the correlated randomness, their shares `(A, B)` from the input shares, the data and
authenticator values of the IDPF at the prefixes, and the verification randomness `r`, let `z`, `z2` and `z3` be the
sketch of the sums of the values.  The report is accepted if and only if
`(a + z)^2 - (b + z2) - (c + z3) + A (a + z) + B = 0`, where `a`, `b`, `c`, `A` and `B` are the sums of the shares.
Then the output shares are the data values; otherwise both Aggregators get a `ValueError`. -/
theorem C61_decides (prims : Prims) (fuel : ℕ) {bits : ℕ} {P : Poplar1} (hP : Poplar1.init bits = .ok P)
    {verifyKey ctx nonce : Bytes} {level : ℕ} {prefixes : List (List Bool)} {pub : List CorrectionWord}
    {s0 s1 : Poplar1InputShare} {r0 r1 : Poplar1VerifyState × FieldVec}
    (h0 : P.verifyInit prims fuel verifyKey ctx 0 (level, prefixes) nonce pub s0 = .ok r0)
    (h1 : P.verifyInit prims fuel verifyKey ctx 1 (level, prefixes) nonce pub s1 = .ok r1) :
    ∃ (ds0 hs0 ds1 hs1 ds hs r : List (Fk (P.idpf.currentField level)))
      (a0 b0 c0 a1 b1 c1 A0 B0 A1 B1 : Fk (P.idpf.currentField level)) (pos' : ℕ),
      r.length = prefixes.length ∧ Samples _ (verifyStream prims verifyKey ctx nonce level) 0 r pos' ∧
      P.idpf.eval prims fuel 0 pub s0.key level prefixes ctx nonce = .ok (List.zipWith (fun d h => [d, h]) ds0 hs0) ∧
      P.idpf.eval prims fuel 1 pub s1.key level prefixes ctx nonce = .ok (List.zipWith (fun d h => [d, h]) ds1 hs1) ∧
      ds0.length = prefixes.length ∧ hs0.length = prefixes.length ∧
      IsSum ![ds0, ds1] ds ∧ IsSum ![hs0, hs1] hs ∧
      CorrAt prims bits s0.corrSeed ctx nonce 0 level _ [a0, b0, c0] ∧
      CorrAt prims bits s1.corrSeed ctx nonce 1 level _ [a1, b1, c1] ∧
      abAt s0 level _ = [A0, B0] ∧ abAt s1 level _ = [A1, B1] ∧
      let (z, z2, z3) := sketchOf ds hs r
      let σ := (a0 + a1 + z) ^ 2 - (b0 + b1 + z2) - (c0 + c1 + z3) + (A0 + A1) * (a0 + a1 + z) + (B0 + B1)
      (σ = 0 → poplar1Verify P prims fuel verifyKey ctx (level, prefixes) nonce pub s0 s1 =
        .ok (⟨_, ds0⟩, ⟨_, ds1⟩)) ∧
      (σ ≠ 0 → ∃ m, poplar1Verify P prims fuel verifyKey ctx (level, prefixes) nonce pub s0 s1 = .error (.value m)) := by
  obtain ⟨st0, sh0⟩ := r0
  obtain ⟨st1, sh1⟩ := r1
  obtain ⟨ds0, hs0, r, a0, b0, c0, A0, B0, pos', l1, l2, l3, e0, hr, k0, ab0, rfl, rfl⟩ :=
    C56_verify_init prims fuel hP (by decide) h0
  obtain ⟨ds1, hs1, r', a1, b1, c1, A1, B1, pos'', l1', l2', l3', e1, hr', k1, ab1, rfl, rfl⟩ :=
    C56_verify_init prims fuel hP (by decide) h1
  obtain ⟨rfl, -⟩ := Samples.unique hr hr' (l3.trans l3'.symm)
  refine ⟨ds0, hs0, ds1, hs1, _, _, r, a0, b0, c0, a1, b1, c1, A0, B0, A1, B1, pos', l3, hr, e0, e1, l1, l2,
    isSum_two (l1.trans l1'.symm), isSum_two (l2.trans l2'.symm), k0, k1, ab0, ab1, ?_⟩
  rw [sketchOf_add (by omega) (by omega) (by omega) (by omega)]
  have := poplar1Verify_of h0 h1
  set z0 := sketchOf ds0 hs0 r
  set z1 := sketchOf ds1 hs1 r
  have e1 : a0 + z0.1 + (a1 + z1.1) = a0 + a1 + (z0 + z1).1 := add_add_add_comm _ _ _ _
  have e2 : b0 + z0.2.1 + (b1 + z1.2.1) = b0 + b1 + (z0 + z1).2.1 := add_add_add_comm _ _ _ _
  have e3 : c0 + z0.2.2 + (c1 + z1.2.2) = c0 + c1 + (z0 + z1).2.2 := add_add_add_comm _ _ _ _
  rw [e1, e2, e3] at this
  exact this

/-- C61: what happens if the shares `(A, B)` of an accepted report are changed.  Let the first-round message of the report
be `[z, _, _]`.  If the second Aggregator has the same share except that its `(A, B)` of the level are changed by `dA` and
`dB`, then the report is accepted if and only if `dA * z + dB = 0`; the output shares are then the same. -/
theorem C61_changed_share (prims : Prims) (fuel : ℕ) {bits : ℕ} {P : Poplar1} (hP : Poplar1.init bits = .ok P)
    {verifyKey ctx nonce : Bytes} {level : ℕ} {prefixes : List (List Bool)} {pub : List CorrectionWord}
    {s0 s1 s1' : Poplar1InputShare} {out : FieldVec × FieldVec} {st0 st1 : Poplar1VerifyState} {sh0 sh1 : FieldVec}
    (hok : poplar1Verify P prims fuel verifyKey ctx (level, prefixes) nonce pub s0 s1 = .ok out)
    (h0 : P.verifyInit prims fuel verifyKey ctx 0 (level, prefixes) nonce pub s0 = .ok (st0, sh0))
    (h1 : P.verifyInit prims fuel verifyKey ctx 1 (level, prefixes) nonce pub s1 = .ok (st1, sh1))
    (hkey : s1'.key = s1.key) (hseed : s1'.corrSeed = s1.corrSeed)
    {A B dA dB : Fk (P.idpf.currentField level)} (hab : abAt s1 level _ = [A, B])
    (hab' : abAt s1' level _ = [A + dA, B + dB]) :
    ∃ z z2 z3 : Fk (P.idpf.currentField level),
      Poplar1.sharesToMessage ctx (level, prefixes) [sh0, sh1] = .ok (some ⟨_, [z, z2, z3]⟩) ∧
      (dA * z + dB = 0 → poplar1Verify P prims fuel verifyKey ctx (level, prefixes) nonce pub s0 s1' = .ok out) ∧
      (dA * z + dB ≠ 0 →
        ∃ m, poplar1Verify P prims fuel verifyKey ctx (level, prefixes) nonce pub s0 s1' = .error (.value m)) := by
  obtain ⟨v0, k0, A0, B0, r, R0, rfl, rfl⟩ := (Poplar1.verifyInit_iff (by decide)).1 h0
  obtain ⟨v1, k1, A1, B1, r', R1, rfl, rfl⟩ := (Poplar1.verifyInit_iff (by decide)).1 h1
  have hr := R0.rand.symm.trans R1.rand
  cases hr
  rw [← Poplar1.abShares_eq, R1.ab] at hab
  simp only [List.cons.injEq, and_true] at hab
  obtain ⟨rfl, rfl⟩ := hab
  rw [← Poplar1.abShares_eq] at hab'
  have R1' : Poplar1.InitRun P prims fuel verifyKey ctx 1 level prefixes nonce pub s1' v1 k1 (A1 + dA) (B1 + dB) r :=
    ⟨hkey ▸ R1.eval, hseed ▸ R1.corr, hab', R1.rand, R1.rows⟩
  have h1' := (Poplar1.verifyInit_iff (by decide)).2 ⟨v1, k1, A1 + dA, B1 + dB, r, R1', rfl, rfl⟩
  refine ⟨_, _, _, Poplar1.message_three _ _ _ _ _ _ _ _, ?_⟩
  obtain ⟨p1, p2⟩ := poplar1Verify_of h0 h1
  obtain ⟨q1, q2⟩ := poplar1Verify_of h0 h1'
  set z := (Poplar1.sums k0 v0 r).1 + (Poplar1.sums k1 v1 r).1
  by_cases hz : z ^ 2 - ((Poplar1.sums k0 v0 r).2.1 + (Poplar1.sums k1 v1 r).2.1) -
      ((Poplar1.sums k0 v0 r).2.2 + (Poplar1.sums k1 v1 r).2.2) + (A0 + A1) * z + (B0 + B1) = 0
  · rw [p1 hz] at hok
    cases hok
    have e : ∀ w w' : Fk (P.idpf.currentField level), z ^ 2 - w - w' + (A0 + (A1 + dA)) * z + (B0 + (B1 + dB)) =
        z ^ 2 - w - w' + (A0 + A1) * z + (B0 + B1) + (dA * z + dB) := by
      intro w w'
      ring
    rw [e, hz, zero_add] at q1 q2
    exact ⟨q1, q2⟩
  · obtain ⟨m, hm⟩ := p2 hz
    rw [hm] at hok
    cases hok

/-- C61: which messages `verify_next` accepts.  In the first round, after `verify_init`, exactly the vectors of three
elements, and it returns a new state and a share of the second round; in the second round, exactly `None`, and it returns
the output share, which `verify_init` has fixed. -/
theorem C61_verify_next (prims : Prims) (fuel : ℕ) {P : Poplar1} {verifyKey ctx nonce : Bytes} {j level : ℕ}
    (hj : j < 2) {prefixes : List (List Bool)} {pub : List CorrectionWord} {s : Poplar1InputShare}
    {st : Poplar1VerifyState} {sh : FieldVec}
    (h : P.verifyInit prims fuel verifyKey ctx j (level, prefixes) nonce pub s = .ok (st, sh)) :
    ∃ out : FieldVec,
      (∀ msg, (∃ v, msg = some v ∧ v.2.length = 3) →
        ∃ st' sh', Poplar1.verifyNext ctx st msg = .ok (.cont st' sh') ∧ sh'.2.length = 1 ∧
          Poplar1.verifyNext ctx st' none = .ok (.out out) ∧
          ∀ v, ∃ m, Poplar1.verifyNext ctx st' (some v) = .error (.value m)) ∧
      (∀ msg, ¬ (∃ v, msg = some v ∧ v.2.length = 3) → ∃ m, Poplar1.verifyNext ctx st msg = .error (.value m)) := by
  obtain ⟨value, corr, A, B, r, R, rfl, rfl⟩ := (Poplar1.verifyInit_iff hj).1 h
  refine ⟨⟨_, tab r.length fun i => Poplar1.ent value i 0⟩, ?_, ?_⟩
  · rintro msg ⟨⟨κ, v⟩, rfl, hv⟩
    obtain ⟨x, y, z, rfl⟩ : ∃ x y z, v = [x, y, z] := by
      rcases v with _ | ⟨x, _ | ⟨y, _ | ⟨z, _ | ⟨w, v⟩⟩⟩⟩ <;> simp_all
    exact ⟨_, _, rfl, rfl, rfl, fun v => ⟨_, rfl⟩⟩
  · intro msg hmsg
    rcases msg with _ | ⟨κ, v⟩
    · exact ⟨_, rfl⟩
    · rcases v with _ | ⟨x, _ | ⟨y, _ | ⟨z, _ | ⟨w, v⟩⟩⟩⟩
      · exact ⟨_, rfl⟩
      · exact ⟨_, rfl⟩
      · exact ⟨_, rfl⟩
      · exact absurd ⟨_, rfl, rfl⟩ hmsg
      · exact ⟨_, rfl⟩

-- A report of two Aggregators is accepted; changing `B` of the second Aggregator by 1 makes it rejected, and changing `A`
-- by 1 and `B` by `-z` does not.
example : ((do
    let P ← Poplar1.init 1
    let nonce := List.replicate 16 3
    let a : Poplar1AggParam := (0, [[false], [true]])
    let vk := List.replicate 32 1
    let (pub, ish) ← P.shard toyPrims 40 [1] [true] nonce (List.replicate 128 7)
    let s0 ← getI ish 0
    let s1 ← getI ish 1
    let (_, sh0) ← P.verifyInit toyPrims 40 vk [1] 0 a nonce pub s0
    let (_, sh1) ← P.verifyInit toyPrims 40 vk [1] 1 a nonce pub s1
    let m ← Poplar1.sharesToMessage [1] a [sh0, sh1]
    let z : Field255 := match m with
      | some ⟨.leaf, z :: _⟩ => z
      | _ => 0
    let ok (dA dB : Field255) : Bool :=
      match Spec.poplar1Verify P toyPrims 40 vk [1] a nonce pub s0
        { s1 with corrLeaf := List.zipWith (· + ·) s1.corrLeaf [dA, dB] } with
      | .ok _ => true
      | .error _ => false
    return (PyField.toNat z == 0, ok 0 0, ok 0 1, ok 1 0, ok 1 (-z))) : Res _) =
      .ok (false, true, false, false, true) := by decide +kernel

end Vdaf
