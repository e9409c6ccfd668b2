import Verif.Proofs.PoplarShard
import Verif.Proofs.Poplar1PrivacyReal
import Verif.Spec.Poplar1Oracle

/-! What the honest Aggregator computes, from the values of the corrupted one. -/

set_option linter.unusedSectionVars false

namespace Vdaf.PO
open Spec (bytesAt poplarIdpf levelKind sumAB isOn Askable)

section
variable (bits fuel : ℕ) (prims : Prims) (verifyKey ctx nonce : Bytes)

/-- The honest Aggregator's values at a prefix -/
def honestVal (κ : Kind) (alpha : List Bool) (k : Fk κ) (p : List Bool) (y : List (Fk κ)) : List (Fk κ) :=
  List.zipWith (· - ·) [isOn κ alpha p, isOn κ alpha p * k] y

/-- `verify_init`, after the evaluation of the IDPF -/
def vtail (j : ℕ) (param : Poplar1AggParam) (value : List (List (Fk (levelKind bits param.1))))
    (tri : Fk (levelKind bits param.1) × Fk (levelKind bits param.1) × Fk (levelKind bits param.1))
    (ab : List (Fk (levelKind bits param.1))) : Res (Poplar1VerifyState × FieldVec) :=
  match ab with
  | [A, B] => do
    let rand ← (⟨poplarIdpf bits⟩ : Poplar1).verifyRand prims fuel verifyKey ctx nonce param.1 param.2.length
    let (sk, out) ← Poplar1.sketch tri value rand
    let id ← ofInt (Fk (levelKind bits param.1)) j
    return (⟨.evaluate, param.1, ⟨levelKind bits param.1, [A, B, id] ++ out⟩⟩, ⟨levelKind bits param.1, [sk.1, sk.2.1, sk.2.2]⟩)
  | _ => .error (.value "values to unpack (expected 2)")

/-- `verify_init` of the honest Aggregator `1 - b` -/
def hinit (b : ℕ) (alpha : List Bool) (keyb : Bytes) (s : Sh) (param : Poplar1AggParam) : Res (Poplar1VerifyState × FieldVec) :=
  mapRes (fun p => (poplarIdpf bits).evalPrefix prims fuel b s.pub keyb param.1 ctx nonce p >>= fun y =>
    .ok (honestVal _ alpha (s.V.k param.1 _) p y)) param.2 >>= fun value =>
  vtail bits fuel prims verifyKey ctx nonce (1 - b) param value (s.V.tri (1 - b) param.1 _)
    (Poplar1.abShares param.1 (s.share [] [] (1 - b)).corrInner (s.share [] [] (1 - b)).corrLeaf _)

end

section
variable {bits fuel : ℕ} {prims : Prims} {verifyKey ctx nonce : Bytes}

theorem vtail_congr {prims' : Prims} {j : ℕ} {param : Poplar1AggParam}
    (h : (⟨poplarIdpf bits⟩ : Poplar1).verifyRand prims fuel verifyKey ctx nonce param.1 param.2.length =
      (⟨poplarIdpf bits⟩ : Poplar1).verifyRand prims' fuel verifyKey ctx nonce param.1 param.2.length)
    (value : List (List (Fk (levelKind bits param.1)))) (tri) (ab) :
    vtail bits fuel prims verifyKey ctx nonce j param value tri ab = vtail bits fuel prims' verifyKey ctx nonce j param value tri ab := by
  unfold vtail
  rw [h]

theorem verifyRand_sampS (hc : Idpf.CtxOk ctx) (hk : verifyKey.length = 32) {level : ℕ} (hl : level < 2 ^ 16) (n : ℕ) :
    (⟨poplarIdpf bits⟩ : Poplar1).verifyRand prims fuel verifyKey ctx nonce level n =
      (sampS (Fk (levelKind bits level)) (Spec.verifyStream prims verifyKey ctx nonce level) fuel 0 n >>= fun r => .ok r.1) := by
  unfold Poplar1.verifyRand
  obtain ⟨tag, hd, hdl⟩ := Poplar1.dst_ok (show USAGE_VERIFY_RAND < 2 ^ 16 by decide) hc
  rw [hd]
  simp only [Except.ok_bind']
  have h2 : toBeBytes level 2 = .ok [UInt8.ofNat (level / 2 ^ 8), UInt8.ofNat level] := by
    rw [toBeBytes_nat (by omega)]
    simp only [natToLe, List.reverse_cons, List.reverse_nil, List.nil_append, List.cons_append, Except.ok.injEq]
    have e : ∀ x : ℕ, UInt8.ofNat (x % 256) = UInt8.ofNat x := fun x => UInt8.toNat_inj.1 (by simp)
    rw [e, e]
    rfl
  rw [h2]
  simp only [Except.ok_bind']
  have := expand_sampS (F := Fk (levelKind bits level)) (prims := prims) (fuel := fuel) (n := n) (seed := verifyKey)
    (dst := tag) (binder := nonce ++ [UInt8.ofNat (level / 2 ^ 8), UInt8.ofNat level]) hdl (by omega)
  rw [Poplar1.dst_eq hd] at this
  rw [Poplar1.dst_eq hd]
  exact this

/-- The honest Aggregator's share of a value, from that of the corrupted one -/
theorem evalPrefix_other (hf : fuel < 2 ^ 120) (hc : Idpf.CtxOk ctx) {alpha : List Bool} (ha : alpha.length = bits)
    (hn : nonce.length = 16) {T : Tree} {b : ℕ} (hTb : T.b = b) (hb : b < 2)
    (h1 : T.Sb = srcOf prims bits ctx nonce) (h2 : T.Sj = srcOf prims bits ctx nonce) (h3 : T.alpha = bitOf alpha)
    (hkb : T.keyb.length = 16) (hkj : T.keyj.length = 16)
    {ks : List (Fk .inner)} {kl : List (Fk .leaf)} (hks : ks.length = bits - 1) (hkl : kl.length = 1)
    {pub : List CorrectionWord} (hpub : T.pub fuel bits (gBeta bits ks kl) = .ok pub) {level : ℕ} (hl : level < bits)
    {p : List Bool} (hp : p.length = level + 1) :
    (poplarIdpf bits).evalPrefix prims fuel (1 - b) pub T.keyj level ctx nonce p =
      ((poplarIdpf bits).evalPrefix prims fuel b pub T.keyb level ctx nonce p >>= fun y =>
        .ok (honestVal _ alpha (kAt ks kl level _) p y)) := by
  have lb1 : (ks.map fun k => ([1, k] : List (Fk .inner))).length = bits - 1 := by rw [List.length_map, hks]
  have lb2 : ∀ x ∈ (ks.map fun k => ([1, k] : List (Fk .inner))), x.length = 2 := by
    intro x hx; rw [List.mem_map] at hx; obtain ⟨k, -, rfl⟩ := hx; rfl
  have lb3 : ([1] ++ kl : List (Fk .leaf)).length = 2 := by simp [hkl]
  obtain ⟨rand, hrand⟩ : ∃ rand, rand = (ord b T.keyb T.keyj).1 ++ (ord b T.keyb T.keyj).2 := ⟨_, rfl⟩
  have ho : (ord b T.keyb T.keyj).1.length = 16 ∧ (ord b T.keyb T.keyj).2.length = 16 := by
    unfold ord; split
    · exact ⟨hkb, hkj⟩
    · exact ⟨hkj, hkb⟩
  have hr : rand.length = 32 := by rw [hrand, List.length_append, ho.1, ho.2]
  have e16 : rand.take 16 = (ord b T.keyb T.keyj).1 ∧ rand.drop 16 = (ord b T.keyb T.keyj).2 := by
    rw [hrand]
    exact ⟨List.take_left' ho.1, List.drop_left' ho.1⟩
  have hg := gen_pub (bits := bits) (prims := prims) (fuel := fuel) (ctx := ctx) (nonce := nonce) hf hc ha
    (bi := ks.map fun k => ([1, k] : List (Fk .inner))) (bl := ([1] ++ kl : List (Fk .leaf)))
    lb1 lb2 lb3 hn hr (by rw [hTb]; omega) h1 h2 h3 (by rw [e16.1, e16.2, hTb])
  have hpub' : T.pub fuel bits (fun ℓ => Idpf.betaFun (ks.map fun k => ([1, k] : List (Fk .inner)))
      ([1] ++ kl : List (Fk .leaf)) ℓ _) = T.pub fuel bits (gBeta bits ks kl) := by
    unfold Tree.pub
    apply mapRes_congr
    intro ℓ _
    exact congrArg (fun v => T.word fuel (levelKind bits ℓ) v ℓ) (gBeta_eq hks hkl ℓ)
  rw [hpub', hpub] at hg
  simp only [Except.ok_bind'] at hg
  obtain ⟨-, N, hN⟩ := (Idpf.gen_good (I := poplarIdpf bits) (prims := prims) hf hc ha lb1 lb2 lb3 hr hn).elim hg
  rw [e16.1, e16.2] at hN
  dsimp only at hN
  have hon : p <+: alpha ↔ p = alpha.take (level + 1) := by rw [List.prefix_iff_eq_take, hp]
  have hbeta := gBeta_eq (bits := bits) hks hkl level
  rw [Idpf.evalPrefix_eq _ _ _ _ _ _ _ _ _ hp, Idpf.evalPrefix_eq _ _ _ _ _ _ _ _ _ hp]
  by_cases hpa : p = alpha.take (level + 1)
  · obtain ⟨y0, y1, a0, a1, l0, l1, hz⟩ := hN.raw_on hl hp hpa
    have hz' : List.zipWith (· + ·) y0 (vecNeg y1) = [1, kAt ks kl level (levelKind bits level)] := hz.trans hbeta
    have hv : ∀ y, honestVal (levelKind bits level) alpha (kAt ks kl level _) p y =
        List.zipWith (· - ·) [1, kAt ks kl level _] y := by
      intro y
      unfold honestVal
      rw [isOn_pos (hon.2 hpa), one_mul]
    obtain ⟨u, v, rfl⟩ := List.length_eq_two.1 l0
    obtain ⟨u', v', rfl⟩ := List.length_eq_two.1 l1
    have hzz : u + -u' = 1 ∧ v + -v' = kAt ks kl level (levelKind bits level) := by
      simpa [vecNeg] using hz'
    interval_cases b
    · rw [show (ord 0 T.keyb T.keyj).1 = T.keyb from rfl] at a0
      rw [show (ord 0 T.keyb T.keyj).2 = T.keyj from rfl] at a1
      rw [show (1 - 0 : ℕ) = 1 from rfl, a0, a1]
      simp only [Except.ok_bind', if_true, one_ne_zero, if_false]
      rw [hv, ← hzz.1, ← hzz.2]
      simp [vecNeg]
    · rw [show (ord 1 T.keyb T.keyj).1 = T.keyj from rfl] at a0
      rw [show (ord 1 T.keyb T.keyj).2 = T.keyb from rfl] at a1
      rw [show (1 - 1 : ℕ) = 0 from rfl, a0, a1]
      simp only [Except.ok_bind', if_true, one_ne_zero, if_false]
      rw [hv, ← hzz.1, ← hzz.2]
      simp [vecNeg]
  · have hoff := hN.raw_off hl hp hpa
    have hv : ∀ y : List (Fk (levelKind bits level)), y.length = 2 →
        honestVal (levelKind bits level) alpha (kAt ks kl level _) p y = vecNeg y := by
      intro y hy
      obtain ⟨u, v, rfl⟩ := List.length_eq_two.1 hy
      unfold honestVal
      rw [isOn_neg (fun h => hpa (hon.1 h))]
      simp [vecNeg]
    have row : ∀ (j : ℕ) (key : Bytes) y, (poplarIdpf bits).evalRaw prims fuel j pub key level ctx nonce p = .ok y → y.length = 2 := by
      intro j key y hy
      have := Idpf.evalPrefix_eq (poplarIdpf bits) prims fuel j pub key level ctx nonce hp
      rw [hy] at this
      have l := Idpf.evalPrefix_row this
      split at l
      · exact l
      · simpa [vecNeg] using l
    interval_cases b
    · rw [show (ord 0 T.keyb T.keyj).1 = T.keyb from rfl, show (ord 0 T.keyb T.keyj).2 = T.keyj from rfl] at hoff
      rw [show (1 - 0 : ℕ) = 1 from rfl, ← hoff]
      cases hy : (poplarIdpf bits).evalRaw prims fuel 0 pub T.keyb level ctx nonce p with
      | error e => rfl
      | ok y =>
        simp only [Except.ok_bind', if_true, one_ne_zero, if_false]
        rw [hv y (row _ _ _ hy)]
    · rw [show (ord 1 T.keyb T.keyj).1 = T.keyj from rfl, show (ord 1 T.keyb T.keyj).2 = T.keyb from rfl] at hoff
      rw [show (1 - 1 : ℕ) = 0 from rfl, hoff]
      cases hy : (poplarIdpf bits).evalRaw prims fuel 1 pub T.keyb level ctx nonce p with
      | error e => rfl
      | ok y =>
        simp only [Except.ok_bind', if_true, one_ne_zero, if_false]
        rw [hv _ (by simpa [vecNeg] using row _ _ _ hy)]
        simp [vecNeg]

/-- The samples that sharding has drawn -/
structure Drawn (bits fuel : ℕ) (sh : Str) (ci cl : ℕ → Str)
    (g : List (Fk .inner) → List (Fk .leaf) → Res (List CorrectionWord)) (s : Sh) (p1 p2 p3 : ℕ) : Prop where
  ks : sampS (Fk .inner) sh fuel 0 (bits - 1) = .ok (s.V.ks, p1)
  kl : sampS (Fk .leaf) sh fuel p1 1 = .ok (s.V.kl, p2)
  pub : g s.V.ks s.V.kl = .ok s.pub
  u : ∀ j < 2, ∃ p, sampS (Fk .inner) (ci j) fuel 0 (3 * (bits - 1)) = .ok (s.V.u j, p)
  w : ∀ j < 2, ∃ p, sampS (Fk .leaf) (cl j) fuel 0 3 = .ok (s.V.w j, p)
  corr : pairsS bits fuel sh p2 s.V.ab = .ok (p3, s.corr)
  pairs : ∃ u0 u1 w0 w1, s.V.u = pair u0 u1 ∧ s.V.w = pair w0 w1

theorem shardS_drawn {sh : Str} {ci cl : ℕ → Str} {g : List (Fk .inner) → List (Fk .leaf) → Res (List CorrectionWord)} {s : Sh} :
    shardS bits fuel sh ci cl g = .ok s ↔ ∃ p1 p2 p3, Drawn bits fuel sh ci cl g s p1 p2 p3 := by
  constructor
  · intro h
    unfold shardS at h
    simp only [Except.bind_eq_ok] at h
    obtain ⟨k1, h1, k2, h2, pub, h3, u0, h4, u1, h5, w0, h6, w1, h7, c, h8, h⟩ := h
    cases h
    refine ⟨k1.2, k2.2, c.1, h1, h2, h3, ?_, ?_, h8, ⟨_, _, _, _, rfl, rfl⟩⟩
    · intro j hj
      interval_cases j
      · exact ⟨_, h4⟩
      · exact ⟨_, h5⟩
    · intro j hj
      interval_cases j
      · exact ⟨_, h6⟩
      · exact ⟨_, h7⟩
  · rintro ⟨p1, p2, p3, h⟩
    obtain ⟨q0, h4⟩ := h.u 0 (by omega)
    obtain ⟨q1, h5⟩ := h.u 1 (by omega)
    obtain ⟨r0, h6⟩ := h.w 0 (by omega)
    obtain ⟨r1, h7⟩ := h.w 1 (by omega)
    obtain ⟨u0, u1, w0, w1, e1, e2⟩ := h.pairs
    obtain ⟨pub, ⟨ks, kl, u, w⟩, corr⟩ := s
    dsimp only at e1 e2
    subst e1 e2
    unfold shardS
    rw [h.ks]
    simp only [Except.ok_bind']
    rw [h.kl]
    simp only [Except.ok_bind']
    rw [h.pub, h4, h5, h6, h7]
    simp only [Except.ok_bind']
    have := h.corr
    dsimp only [pair] at this ⊢
    simp only [if_true, one_ne_zero, if_false] at this ⊢
    erw [this]
    rfl

theorem vec_eq {f : (κ : Kind) → List (Fk κ)} {K κ : Kind} {o : List (Fk K)} (h : (⟨K, o⟩ : FieldVec) = ⟨κ, f κ⟩) (hκ : K = κ) :
    o = f K := by
  subst hκ
  simpa using h

/-- The honest Aggregator's part of the correlated randomness -/
theorem corrShares_tri (hc : Idpf.CtxOk ctx) {seed : Bytes} (hs : seed.length = 32) {V : Vals} {j : ℕ} (hj : j < 2) {p p' : ℕ}
    (hu : sampS (Fk .inner) (Spec.corrInnerStream prims seed ctx nonce j) fuel 0 (3 * (bits - 1)) = .ok (V.u j, p))
    (hw : sampS (Fk .leaf) (Spec.corrLeafStream prims seed ctx nonce j) fuel 0 3 = .ok (V.w j, p')) (level : ℕ) :
    (⟨poplarIdpf bits⟩ : Poplar1).corrShares prims fuel ctx j level nonce seed =
      .ok [(V.tri j level (levelKind bits level)).1, (V.tri j level (levelKind bits level)).2.1,
        (V.tri j level (levelKind bits level)).2.2] := by
  by_cases hi : level < bits - 1
  · have hκ : levelKind bits level = .inner := Idpf.currentField_inner (I := poplarIdpf bits) hi
    obtain ⟨tag, hd, hdl⟩ := Poplar1.dst_ok (show USAGE_CORR_INNER < 2 ^ 16 by decide) hc
    have he : (Poplar1.xof prims fuel).expandIntoVec (Fk .inner) seed tag ([UInt8.ofNat j] ++ nonce)
        (3 * ((⟨poplarIdpf bits⟩ : Poplar1).idpf.bits - 1)) = .ok (V.u j) := by
      show (XofTurboShake128 prims fuel).expandIntoVec (Fk .inner) seed tag ([UInt8.ofNat j] ++ nonce) (3 * (bits - 1)) = _
      rw [expand_sampS hdl (by omega), Poplar1.dst_eq hd]
      change (sampS (Fk .inner) (Spec.corrInnerStream prims seed ctx nonce j) fuel 0 (3 * (bits - 1)) >>= _) = _
      rw [hu]
      rfl
    obtain ⟨o, ho, heq⟩ := Poplar1.corrShares_inner (P := ⟨poplarIdpf bits⟩) (prims := prims) (fuel := fuel) hj hi hd he
    rw [ho]
    congr 1
    have hsl : slice (V.u j) (3 * level) (3 * level + 3) = [(V.tri j level .inner).1, (V.tri j level .inner).2.1, (V.tri j level .inner).2.2] := by
      unfold slice
      rw [List.drop_take, show 3 * level + 3 - 3 * level = 3 by omega, two_coef (F := Fk .inner) (by rw [(sampS_ok hu).1]; omega)]
      rfl
    rw [hsl] at heq
    exact vec_eq (f := fun κ => [(V.tri j level κ).1, (V.tri j level κ).2.1, (V.tri j level κ).2.2]) heq hκ
  · have hκ : levelKind bits level = .leaf := Idpf.currentField_leaf (I := poplarIdpf bits) hi
    obtain ⟨tag, hd, hdl⟩ := Poplar1.dst_ok (show USAGE_CORR_LEAF < 2 ^ 16 by decide) hc
    have he : (Poplar1.xof prims fuel).expandIntoVec (Fk .leaf) seed tag ([UInt8.ofNat j] ++ nonce) 3 = .ok (V.w j) := by
      show (XofTurboShake128 prims fuel).expandIntoVec (Fk .leaf) seed tag ([UInt8.ofNat j] ++ nonce) 3 = _
      rw [expand_sampS hdl (by omega), Poplar1.dst_eq hd]
      change (sampS (Fk .leaf) (Spec.corrLeafStream prims seed ctx nonce j) fuel 0 3 >>= _) = _
      rw [hw]
      rfl
    obtain ⟨o, ho, heq⟩ := Poplar1.corrShares_leaf (P := ⟨poplarIdpf bits⟩) (prims := prims) (fuel := fuel) hj hi hd he
    rw [ho]
    congr 1
    have hsl : V.w j = [(V.tri j level .leaf).1, (V.tri j level .leaf).2.1, (V.tri j level .leaf).2.2] := by
      have := two_coef (F := Fk .leaf) (l := V.w j) (n := 0) (by rw [(sampS_ok hw).1])
      rw [List.drop_zero, List.take_of_length_le (by rw [(sampS_ok hw).1])] at this
      exact this
    rw [hsl] at heq
    exact vec_eq (f := fun κ => [(V.tri j level κ).1, (V.tri j level κ).2.1, (V.tri j level κ).2.2]) heq hκ

/-- `verify_init` of the honest Aggregator, from what the corrupted one has -/
theorem verifyInit_hinit (hf : fuel < 2 ^ 120) (hc : Idpf.CtxOk ctx) {alpha : List Bool} (ha : alpha.length = bits)
    (hn : nonce.length = 16) {T : Tree} {b : ℕ} (hTb : T.b = b) (hb : b < 2)
    (h1 : T.Sb = srcOf prims bits ctx nonce) (h2 : T.Sj = srcOf prims bits ctx nonce) (h3 : T.alpha = bitOf alpha)
    (hkb : T.keyb.length = 16) (hkj : T.keyj.length = 16) {s : Sh} {seed : Bytes} (hs : seed.length = 32)
    (hks : s.V.ks.length = bits - 1) (hkl : s.V.kl.length = 1)
    (hpub : T.pub fuel bits (gBeta bits s.V.ks s.V.kl) = .ok s.pub) {p p' : ℕ}
    (hu : sampS (Fk .inner) (Spec.corrInnerStream prims seed ctx nonce (1 - b)) fuel 0 (3 * (bits - 1)) = .ok (s.V.u (1 - b), p))
    (hw : sampS (Fk .leaf) (Spec.corrLeafStream prims seed ctx nonce (1 - b)) fuel 0 3 = .ok (s.V.w (1 - b), p'))
    {param : Poplar1AggParam} (hp : Askable bits param) :
    (⟨poplarIdpf bits⟩ : Poplar1).verifyInit prims fuel verifyKey ctx (1 - b) param nonce s.pub (s.share T.keyj seed (1 - b)) =
      hinit bits fuel prims verifyKey ctx nonce b alpha T.keyb s param := by
  obtain ⟨level, prefixes⟩ := param
  obtain ⟨a1, a2, a3, a4⟩ := hp
  dsimp only at a1 a2 a3 a4
  have he : (poplarIdpf bits).eval prims fuel ((1 - b : ℕ) : ℤ) s.pub T.keyj ((level : ℕ) : ℤ) prefixes ctx nonce =
      mapRes (fun p => (poplarIdpf bits).evalPrefix prims fuel b s.pub T.keyb level ctx nonce p >>= fun y =>
        .ok (honestVal _ alpha (s.V.k level _) p y)) prefixes :=
    (Idpf.eval_eq (poplarIdpf bits) prims fuel (by omega) s.pub T.keyj a1 a3 ctx nonce).trans (mapRes_congr fun p hp =>
      evalPrefix_other hf hc ha hn hTb hb h1 h2 h3 hkb hkj hks hkl hpub a1 (a4 p hp))
  have hcs := corrShares_tri (bits := bits) (prims := prims) (fuel := fuel) (ctx := ctx) (nonce := nonce) (V := s.V) (j := 1 - b)
    hc hs (by omega) hu hw level
  unfold Poplar1.verifyInit hinit
  dsimp only
  have hk : (s.share T.keyj seed (1 - b)).key = T.keyj := rfl
  have hseed : (s.share T.keyj seed (1 - b)).corrSeed = seed := rfl
  have hi : (s.share T.keyj seed (1 - b)).corrInner = (s.share [] [] (1 - b)).corrInner := rfl
  have hl : (s.share T.keyj seed (1 - b)).corrLeaf = (s.share [] [] (1 - b)).corrLeaf := rfl
  rw [hk, hseed, hi, hl]
  erw [he]
  cases mapRes (fun p => (poplarIdpf bits).evalPrefix prims fuel b s.pub T.keyb level ctx nonce p >>= fun y =>
        .ok (honestVal _ alpha (s.V.k level _) p y)) prefixes with
  | error e => rfl
  | ok value =>
    simp only [Except.ok_bind']
    rw [hcs]
    simp only [Except.ok_bind']
    unfold vtail
    dsimp only
    generalize Poplar1.abShares level (s.share [] [] (1 - b)).corrInner (s.share [] [] (1 - b)).corrLeaf
      (levelKind bits level) = ab
    match ab with
    | [] | [_] | [_, _] | _ :: _ :: _ :: _ => rfl

end
end Vdaf.PO
