import Verif.Spec.Idpf
import Verif.Proofs.XofTotal

/-! Correctness of the IDPF. -/

set_option linter.unusedSectionVars false

namespace Vdaf

theorem castElem_self {κ : Kind} (x : Fk κ) : castElem κ x = x := PyField.natCast_toNat x

theorem castVec_self {κ : Kind} (v : List (Fk κ)) : castVec κ ⟨κ, v⟩ = v := by
  unfold castVec
  conv_rhs => rw [← List.map_id v]
  exact List.map_congr_left fun x _ => castElem_self x

theorem castVec_length (κ : Kind) (v : FieldVec) : (castVec κ v).length = v.2.length := by
  simp [castVec]

/-! ### `xor` -/

theorem xor_xor_left {a b : Bytes} (h : a.length = b.length) : xor a (xor a b) = b := by
  unfold xor
  apply List.ext_getElem
  · simp [h]
  · intro i h1 h2
    simp [← UInt8.xor_assoc]

theorem xor_xor_right {a b : Bytes} (h : a.length = b.length) : xor b (xor a b) = a := by
  unfold xor
  apply List.ext_getElem
  · simp [h]
  · intro i h1 h2
    simp only [List.getElem_zipWith]
    rw [UInt8.xor_comm, UInt8.xor_assoc]; simp

namespace Idpf
variable (I : Idpf) (prims : Prims) (fuel : ℕ)

/-! ### `extend` and `convert` return -/

/-- What is needed of a context for the XOFs not to raise. -/
def CtxOk (ctx : Bytes) : Prop := ctx.length + 8 < 2 ^ 16

theorem currentXof_seed (level : ℕ) (B : ℕ) (hB : B < 16 * 2 ^ 128) :
    ∃ J : ℕ → (I.currentXof prims fuel level).State → Prop,
      (∀ seed dst binder : Bytes, seed.length = 16 → dst.length < 2 ^ 16 →
        ∃ st, (I.currentXof prims fuel level).init seed dst binder = .ok st ∧ J B st) ∧
      ∀ st b n, J b st → n ≤ b → ∃ out st',
        (I.currentXof prims fuel level).next st n = .ok (out, st') ∧ out.length = n ∧ J (b - n) st' := by
  by_cases hl : level < I.bits - 1
  · rw [show I.currentXof prims fuel level = XofFixedKeyAes128 prims fuel from if_pos hl]
    exact aes_total prims fuel B hB
  · rw [show I.currentXof prims fuel level = XofTurboShake128 prims fuel from if_neg hl]
    refine ⟨fun _ _ => True, fun seed dst binder hs hd => ?_, fun st b n _ _ => ?_⟩
    · rw [turbo_init, if_pos hd, if_pos (by rw [hs]; decide)]
      exact ⟨_, rfl, trivial⟩
    · exact ⟨_, _, rfl, by simp, trivial⟩

theorem currentXof_fuel (level : ℕ) : (I.currentXof prims fuel level).fuel = fuel := by
  unfold currentXof; split <;> rfl

theorem formatDst_ok {c a u : ℕ} (hc : c < 2 ^ 8) (ha : a < 2 ^ 32) (hu : u < 2 ^ 16) :
    ∃ t, formatDst c a u = .ok t ∧ t.length = 8 := (formatDst_total c a u).2 ⟨hc, ha, hu⟩

theorem ctrlBit_ok {s : Bytes} (h : s.length = 16) :
    ∃ s' t, ctrlBit s = .ok (s', t) ∧ s'.length = 16 := by
  cases s with
  | nil => simp at h
  | cons b s => exact ⟨_, _, rfl, by simpa using h⟩

theorem extend_ok (level : ℕ) {seed ctx : Bytes} (nonce : Bytes) (hs : seed.length = 16)
    (hc : CtxOk ctx) :
    ∃ s t, I.extend prims fuel level seed ctx nonce = .ok (s, t) ∧ s.1.length = 16 ∧
      s.2.length = 16 := by
  unfold extend
  obtain ⟨t, ht, hl⟩ := formatDst_ok (c := 1) (a := 0) (u := 0) (by decide) (by decide) (by decide)
  obtain ⟨J, h1, h2⟩ := I.currentXof_seed prims fuel level 32 (by decide)
  obtain ⟨st, h3, h4⟩ := h1 seed (t ++ ctx) nonce hs (by
    unfold CtxOk at hc; rw [List.length_append, hl]; omega)
  obtain ⟨s0, st1, h5, h6, h7⟩ := h2 st 32 16 h4 (by decide)
  obtain ⟨s1, st2, h8, h9, -⟩ := h2 st1 _ 16 h7 (by decide)
  obtain ⟨s0', t0, h10, h11⟩ := ctrlBit_ok h6
  obtain ⟨s1', t1, h12, h13⟩ := ctrlBit_ok h9
  refine ⟨(s0', s1'), (t0, t1), ?_, h11, h13⟩
  rw [ht]; simp only [Except.ok_bind', KEY_SIZE]
  rw [h3]; simp only [Except.ok_bind']
  rw [h5]; simp only [Except.ok_bind']
  rw [h8]; simp only [Except.ok_bind']
  rw [h10]; simp only [Except.ok_bind']
  rw [h12]; rfl

theorem encSize_le (κ : Kind) : PyField.encSize (Fk κ) ≤ 32 := by
  cases κ
  · show (8 : ℕ) ≤ 32; decide
  · show (32 : ℕ) ≤ 32; decide

theorem convert_good (hf : fuel < 2 ^ 120) (level : ℕ) {seed ctx : Bytes} (nonce : Bytes)
    (hs : seed.length = 16) (hc : CtxOk ctx) :
    Good (fun e => e = .fuel) (I.convert prims fuel level seed ctx nonce) fun r =>
      r.1.length = 16 ∧ r.2.length = I.valueLen := by
  unfold convert
  obtain ⟨t, ht, hl⟩ := formatDst_ok (c := 1) (a := 0) (u := 1) (by decide) (by decide) (by decide)
  have hB : 16 + fuel * 32 < 16 * 2 ^ 128 := by omega
  obtain ⟨J, h1, h2⟩ := I.currentXof_seed prims fuel level _ hB
  obtain ⟨st, h3, h4⟩ := h1 seed (t ++ ctx) nonce hs (by
    unfold CtxOk at hc; rw [List.length_append, hl]; omega)
  obtain ⟨s0, st1, h5, h6, h7⟩ := h2 st _ 16 h4 (by omega)
  rw [ht]; simp only [Except.ok_bind', KEY_SIZE]
  rw [h3]; simp only [Except.ok_bind']
  rw [h5]; simp only [Except.ok_bind']
  unfold Xof.nextVec
  rw [nextPowerOf2_of_pos (modulus_pos _)]
  simp only [Except.ok_bind']
  refine (nextVecLoop_good h2 _ I.valueLen _ _ st1 [] h7 ?_ (by simp)).bind fun r _ hr =>
    Good.ok ⟨h6, hr⟩
  rw [currentXof_fuel, Nat.add_sub_cancel_left]
  exact Nat.mul_le_mul_left _ (encSize_le _)

/-! ### One level -/

/-- The addition of the correction word in `eval_next` -/
theorem addLoop {κ : Kind} (y w : List (Fk κ)) (h : y.length ≤ w.length) :
    forFold (List.range y.length) y (fun y i => do
        let yi ← getI y i
        let wi ← getI w i
        setI y i (yi + wi)) = .ok (List.zipWith (· + ·) y w) := by
  obtain ⟨b, hb, hP⟩ := forFold_range y.length y (fun y i => do
        let yi ← getI y i
        let wi ← getI w i
        setI y i (yi + wi))
    (fun i b => b = List.zipWith (· + ·) (y.take i) w ++ y.drop i) (by simp) (by
      rintro i hi b rfl
      have hl : (List.zipWith (· + ·) (y.take i) w).length = i := by
        simp; omega
      rw [getI_of_some (x := y[i]) (by
        rw [List.getElem?_append_right (by omega), hl]; simp [hi])]
      simp only [Except.ok_bind']
      rw [getI_of_lt (show i < w.length by omega)]
      simp only [Except.ok_bind']
      rw [setI_of_lt (by rw [List.length_append, hl, List.length_drop]; omega)]
      refine ⟨_, rfl, ?_⟩
      rw [List.set_append_right _ _ (by omega), hl]
      apply List.ext_getElem
      · simp; omega
      · intro j h1 h2
        simp only [List.length_append, hl, List.length_set, List.length_drop] at h1
        by_cases hj : j < i
        · rw [List.getElem_append_left (by omega), List.getElem_append_left (by simp; omega)]
          simp
        · by_cases hj' : j = i
          · subst hj'
            rw [List.getElem_append_right (by omega), List.getElem_append_left (by simp; omega)]
            simp [hl]
          · rw [List.getElem_append_right (by omega), List.getElem_append_right (by simp; omega)]
            simp only [hl, List.length_zipWith, List.length_take]
            rw [List.getElem_set_ne (by omega)]
            simp only [List.getElem_drop]
            congr 1
            omega)
  rw [hb, hP]; simp

/-- The child of a node along a bit: the corrected seed and control bit -/
def child (s : Bytes × Bytes) (t : Bool × Bool) (ctrl bit : Bool) (cw : CorrectionWord) : Bytes × Bool :=
  genKeep s t ctrl bit cw.seedCw cw.ctrlCw

/-- `eval_next`, after the seeds are extended -/
def finish (level : ℕ) (c : Bytes × Bool) (cw : CorrectionWord) (ctx nonce : Bytes) :
    Res (Bytes × Bool × List (Fk (I.currentField level))) := do
  let (nextSeed, y) ← I.convert prims fuel level c.1 ctx nonce
  let y ← if c.2 then
      forFold (List.range y.length) y fun y i => do
        let yi ← getI y i
        let wi ← getI (castVec _ cw.wCw) i
        setI y i (yi + wi)
    else .ok y
  return (nextSeed, c.2, y)

theorem evalNext_eq (prevSeed : Bytes) (prevCtrl : Bool) (cw : CorrectionWord) (level : ℕ) (bit : Bool)
    (ctx nonce : Bytes) :
    I.evalNext prims fuel prevSeed prevCtrl cw level bit ctx nonce =
      (I.extend prims fuel level prevSeed ctx nonce >>= fun r =>
        I.finish prims fuel level (child r.1 r.2 prevCtrl bit cw) cw ctx nonce) := by
  unfold evalNext finish
  congr 1
  funext r
  obtain ⟨s, t⟩ := r
  have h1 : pick (if prevCtrl = true then (xor s.1 cw.seedCw, xor s.2 cw.seedCw) else s) bit =
      (child s t prevCtrl bit cw).1 := by
    unfold child genKeep pick; cases prevCtrl <;> cases bit <;> rfl
  have h2 : pick (if prevCtrl = true then (Bool.xor t.1 cw.ctrlCw.1, Bool.xor t.2 cw.ctrlCw.2) else t) bit =
      (child s t prevCtrl bit cw).2 := by
    unfold child genKeep pick; cases prevCtrl <;> cases bit <;> rfl
  simp only [h1, h2]

/-- One level of `gen`: what the correction word and the new states are. -/
structure GenStep (level : ℕ) (bit : Bool) (b : List (Fk (I.currentField level))) (ctx nonce : Bytes)
    (seed : Bytes × Bytes) (ctrl : Bool × Bool) (cw : CorrectionWord) (seed' : Bytes × Bytes)
    (ctrl' : Bool × Bool) : Prop where
  ex : ∃ s0 t0 s1 t1 w0 w1 w,
    I.extend prims fuel level seed.1 ctx nonce = .ok (s0, t0) ∧
    I.extend prims fuel level seed.2 ctx nonce = .ok (s1, t1) ∧
    s0.1.length = 16 ∧ s0.2.length = 16 ∧ s1.1.length = 16 ∧ s1.2.length = 16 ∧
    cw.seedCw = xor (pick s0 !bit) (pick s1 !bit) ∧
    cw.ctrlCw = (Bool.xor (Bool.xor t0.1 t1.1) (!bit), Bool.xor (Bool.xor t0.2 t1.2) bit) ∧
    cw.wCw = ⟨_, w⟩ ∧
    I.convert prims fuel level (child s0 t0 ctrl.1 bit cw).1 ctx nonce = .ok (seed'.1, w0) ∧
    I.convert prims fuel level (child s1 t1 ctrl.2 bit cw).1 ctx nonce = .ok (seed'.2, w1) ∧
    (child s0 t0 ctrl.1 bit cw).2 = ctrl'.1 ∧ (child s1 t1 ctrl.2 bit cw).2 = ctrl'.2 ∧
    w0.length = I.valueLen ∧ w1.length = I.valueLen ∧ b.length = I.valueLen ∧
    w.length = I.valueLen ∧
    ∀ i < I.valueLen, w[i]? = do
      let b ← b[i]?
      let w0 ← w0[i]?
      let w1 ← w1[i]?
      return if ctrl'.2 then -(b - w0 + w1) else b - w0 + w1

variable {I prims fuel}

theorem pick_length {s : Bytes × Bytes} {n : ℕ} (h1 : s.1.length = n) (h2 : s.2.length = n) (b : Bool) :
    (pick s b).length = n := by cases b <;> simp [pick, h1, h2]

/-- Off the path the two parties get the same child. -/
theorem child_off {s0 s1 : Bytes × Bytes} {t0 t1 : Bool × Bool} {c0 c1 bit : Bool}
    {cw : CorrectionWord} (h00 : s0.1.length = 16) (h01 : s0.2.length = 16) (h10 : s1.1.length = 16)
    (h11 : s1.2.length = 16) (hs : cw.seedCw = xor (pick s0 !bit) (pick s1 !bit))
    (ht : cw.ctrlCw = (Bool.xor (Bool.xor t0.1 t1.1) (!bit), Bool.xor (Bool.xor t0.2 t1.2) bit))
    (hc : c0 ≠ c1) : child s0 t0 c0 (!bit) cw = child s1 t1 c1 (!bit) cw := by
  have hl : (pick s0 !bit).length = (pick s1 !bit).length := by
    rw [pick_length h00 h01, pick_length h10 h11]
  unfold child genKeep
  rw [hs, ht]
  obtain ⟨a, b⟩ := t0
  obtain ⟨a', b'⟩ := t1
  cases c0 <;> cases c1
  · exact absurd rfl hc
  · simp only [Bool.false_eq_true, if_false, if_true]
    rw [xor_xor_right hl]
    congr 1
    clear hs ht hl
    revert a b a' b' bit
    simp only [pick]
    decide
  · simp only [Bool.false_eq_true, if_false, if_true]
    rw [xor_xor_left hl]
    congr 1
    clear hs ht hl
    revert a b a' b' bit
    simp only [pick]
    decide
  · exact absurd rfl hc

/-- On the path the control bits differ. -/
theorem child_on {s0 s1 : Bytes × Bytes} {t0 t1 : Bool × Bool} {c0 c1 bit : Bool}
    {cw : CorrectionWord}
    (ht : cw.ctrlCw = (Bool.xor (Bool.xor t0.1 t1.1) (!bit), Bool.xor (Bool.xor t0.2 t1.2) bit))
    (hc : c0 ≠ c1) : (child s0 t0 c0 bit cw).2 ≠ (child s1 t1 c1 bit cw).2 := by
  unfold child genKeep
  rw [ht]
  obtain ⟨a, b⟩ := t0
  obtain ⟨a', b'⟩ := t1
  cases c0 <;> cases c1
  · exact absurd rfl hc
  · simp only [Bool.false_eq_true, if_false, if_true]
    clear ht
    revert a b a' b' bit
    simp only [pick]
    decide
  · simp only [Bool.false_eq_true, if_false, if_true]
    clear ht
    revert a b a' b' bit
    simp only [pick]
    decide
  · exact absurd rfl hc

variable {level : ℕ} {bit : Bool} {b : List (Fk (I.currentField level))} {ctx nonce : Bytes}
  {seed seed' : Bytes × Bytes} {ctrl ctrl' : Bool × Bool} {cw : CorrectionWord}

theorem GenStep.off (h : GenStep I prims fuel level bit b ctx nonce seed ctrl cw seed' ctrl')
    (hc : ctrl.1 ≠ ctrl.2) :
    I.evalNext prims fuel seed.1 ctrl.1 cw level (!bit) ctx nonce =
      I.evalNext prims fuel seed.2 ctrl.2 cw level (!bit) ctx nonce := by
  obtain ⟨s0, t0, s1, t1, w0, w1, w, h1, h2, h3, h4, h5, h6, h7, h8, -⟩ := h.ex
  rw [evalNext_eq, evalNext_eq, h1, h2]
  simp only [Except.ok_bind']
  rw [child_off h3 h4 h5 h6 h7 h8 hc]

theorem GenStep.ctrl_ne (h : GenStep I prims fuel level bit b ctx nonce seed ctrl cw seed' ctrl')
    (hc : ctrl.1 ≠ ctrl.2) : ctrl'.1 ≠ ctrl'.2 := by
  obtain ⟨s0, t0, s1, t1, w0, w1, w, h1, h2, h3, h4, h5, h6, h7, h8, -, -, -, h9, h10, -⟩ := h.ex
  rw [← h9, ← h10]
  exact child_on h8 hc

theorem GenStep.on (h : GenStep I prims fuel level bit b ctx nonce seed ctrl cw seed' ctrl')
    (hc : ctrl.1 ≠ ctrl.2) :
    ∃ y0 y1, I.evalNext prims fuel seed.1 ctrl.1 cw level bit ctx nonce = .ok (seed'.1, ctrl'.1, y0) ∧
      I.evalNext prims fuel seed.2 ctrl.2 cw level bit ctx nonce = .ok (seed'.2, ctrl'.2, y1) ∧
      y0.length = I.valueLen ∧ y1.length = I.valueLen ∧
      List.zipWith (· + ·) y0 (vecNeg y1) = b := by
  have hne := h.ctrl_ne hc
  obtain ⟨s0, t0, s1, t1, w0, w1, w, h1, h2, h3, h4, h5, h6, h7, h8, h9, h10, h11, h12, h13, h14,
    h15, h16, h17, h18⟩ := h.ex
  rw [evalNext_eq, evalNext_eq, h1, h2]
  simp only [Except.ok_bind', finish]
  rw [h10, h11, h12, h13, h9]
  simp only [Except.ok_bind', castVec_self]
  rw [addLoop w0 w (by omega), addLoop w1 w (by omega)]
  obtain ⟨c0, c1⟩ := ctrl'
  cases c0 <;> cases c1
  · exact absurd rfl hne
  · refine ⟨w0, List.zipWith (· + ·) w1 w, rfl, rfl, h14, by simp [h15, h17], ?_⟩
    apply List.ext_getElem
    · simp [vecNeg, h14, h15, h16, h17]
    · intro i hi hi'
      have hi2 : i < I.valueLen := by omega
      have := h18 i hi2
      rw [List.getElem?_eq_getElem (by omega), List.getElem?_eq_getElem (by omega),
        List.getElem?_eq_getElem (by omega), List.getElem?_eq_getElem (by omega)] at this
      simp only [Option.bind_eq_bind, Option.bind_some, if_true, Option.pure_def, Option.some.injEq] at this
      simp only [vecNeg, List.getElem_zipWith, List.getElem_map, this]
      ring
  · refine ⟨List.zipWith (· + ·) w0 w, w1, rfl, rfl, by simp [h14, h17], h15, ?_⟩
    apply List.ext_getElem
    · simp [vecNeg, h14, h15, h16, h17]
    · intro i hi hi'
      have hi2 : i < I.valueLen := by omega
      have := h18 i hi2
      rw [List.getElem?_eq_getElem (by omega), List.getElem?_eq_getElem (by omega),
        List.getElem?_eq_getElem (by omega), List.getElem?_eq_getElem (by omega)] at this
      simp only [Option.bind_eq_bind, Option.bind_some, Bool.false_eq_true, if_false,
        Option.pure_def, Option.some.injEq] at this
      simp only [vecNeg, List.getElem_zipWith, List.getElem_map, this]
      ring
  · exact absurd rfl hne


/-! ### `gen` -/

/-- The value programmed at a level -/
def IsBeta (betaInner : List (List Field64)) (betaLeaf : List Field255) (level : ℕ) (κ : Kind)
    (b : List (Fk κ)) : Prop := betaAt betaInner betaLeaf level κ = .ok b

/-- The states of the two parties along the path, and the correction words. -/
structure GenRun (I : Idpf) (prims : Prims) (fuel : ℕ) (alpha : List Bool)
    (beta : (level : ℕ) → List (Fk (I.currentField level))) (ctx nonce : Bytes) (key0 key1 : Bytes)
    (n : ℕ) (pub : List CorrectionWord) (N : ℕ → (Bytes × Bytes) × (Bool × Bool)) : Prop where
  len : pub.length = n
  zero : N 0 = ((key0, key1), (false, true))
  step : ∀ ℓ < n, ∃ bit cw, alpha[ℓ]? = some bit ∧ pub[ℓ]? = some cw ∧
    GenStep I prims fuel ℓ bit (beta ℓ) ctx nonce (N ℓ).1 (N ℓ).2 cw (N (ℓ + 1)).1 (N (ℓ + 1)).2

theorem pick_fst {α : Type} (p : α × α) : pick p false = p.1 := rfl
theorem pick_snd {α : Type} (p : α × α) : pick p true = p.2 := rfl

theorem child_length {s : Bytes × Bytes} {t : Bool × Bool} {c bit : Bool} {cw : CorrectionWord}
    (h1 : s.1.length = 16) (h2 : s.2.length = 16) (h3 : cw.seedCw.length = 16) :
    (child s t c bit cw).1.length = 16 := by
  unfold child genKeep
  split
  · rw [xor_length, pick_length h1 h2, h3]; rfl
  · exact pick_length h1 h2 _

theorem genLevel_good (hf : fuel < 2 ^ 120) {alpha : List Bool} {betaInner : List (List Field64)}
    {betaLeaf : List Field255} (hc : CtxOk ctx) {st : GenState} (h0 : st.seed.1.length = 16)
    (h1 : st.seed.2.length = 16) (ha : alpha[level]? = some bit)
    (hb : betaAt betaInner betaLeaf level (I.currentField level) = .ok b)
    (hbl : b.length = I.valueLen) :
    Good (fun e => e = .fuel) (I.genLevel prims fuel alpha betaInner betaLeaf ctx nonce st level)
      fun st' => st'.seed.1.length = 16 ∧ st'.seed.2.length = 16 ∧
        ∃ cw, st'.publicShare = st.publicShare ++ [cw] ∧
          GenStep I prims fuel level bit b ctx nonce st.seed st.ctrl cw st'.seed st'.ctrl := by
  unfold genLevel
  rw [getI_of_some ha]; simp only [Except.ok_bind']
  obtain ⟨s0, t0, e0, l00, l01⟩ := I.extend_ok prims fuel level nonce h0 hc
  obtain ⟨s1, t1, e1, l10, l11⟩ := I.extend_ok prims fuel level nonce h1 hc
  rw [e0]; simp only [Except.ok_bind']
  rw [e1]; simp only [Except.ok_bind']
  set scw := xor (pick s0 !bit) (pick s1 !bit) with hscw
  have lcw : scw.length = 16 := by
    rw [hscw, xor_length, pick_length l00 l01, pick_length l10 l11]; rfl
  set tcw := (Bool.xor (Bool.xor t0.1 t1.1) (!bit), Bool.xor (Bool.xor t0.2 t1.2) bit) with htcw
  have k0 : (genKeep s0 t0 st.ctrl.1 bit scw tcw).1.length = 16 :=
    child_length (cw := ⟨scw, tcw, ⟨.inner, []⟩⟩) l00 l01 lcw
  have k1 : (genKeep s1 t1 st.ctrl.2 bit scw tcw).1.length = 16 :=
    child_length (cw := ⟨scw, tcw, ⟨.inner, []⟩⟩) l10 l11 lcw
  refine (I.convert_good prims fuel hf level nonce k0 hc).bind ?_
  rintro ⟨seed0, w0⟩ c0 ⟨m0, m1⟩
  refine (I.convert_good prims fuel hf level nonce k1 hc).bind ?_
  rintro ⟨seed1, w1⟩ c1 ⟨m2, m3⟩
  dsimp only at m0 m1 m2 m3
  simp only
  rw [hb]; simp only [Except.ok_bind']
  rw [raiseIf_of_not (by simpa using hbl)]; simp only [Except.ok_bind']
  unfold vecSub vecAdd
  rw [if_neg (by simp [hbl, m1])]; simp only [Except.ok_bind']
  rw [if_neg (by simp [hbl, m1, m3])]; simp only [Except.ok_bind']
  refine Good.ok ⟨m0, m2, _, rfl, ⟨⟨s0, t0, s1, t1, w0, w1, _, e0, e1, l00, l01, l10, l11, rfl, rfl,
    rfl, c0, c1, rfl, rfl, m1, m3, hbl, ?_, ?_⟩⟩⟩
  · split <;> simp [hbl, m1, m3]
  · intro i hi
    have i0 : i < b.length := by omega
    have i1 : i < w0.length := by omega
    have i2 : i < w1.length := by omega
    dsimp only
    cases (genKeep s1 t1 st.ctrl.2 bit scw tcw).2 <;> simp [i0, i1, i2]

/-- `beta` as a function of the level -/
def betaFun (betaInner : List (List Field64)) (betaLeaf : List Field255) (level : ℕ) :
    (κ : Kind) → List (Fk κ)
  | .inner => betaInner.getD level []
  | .leaf => betaLeaf

theorem currentField_inner {I : Idpf} {level : ℕ} (h : level < I.bits - 1) :
    I.currentField level = .inner := if_pos h
theorem currentField_leaf {I : Idpf} {level : ℕ} (h : ¬ level < I.bits - 1) :
    I.currentField level = .leaf := if_neg h

theorem betaAt_ok {betaInner : List (List Field64)} {betaLeaf : List Field255}
    (hi : betaInner.length = I.bits - 1) (hib : ∀ x ∈ betaInner, x.length = I.valueLen)
    (hl : betaLeaf.length = I.valueLen) (level : ℕ) :
    betaAt betaInner betaLeaf level (I.currentField level) =
      .ok (betaFun betaInner betaLeaf level (I.currentField level)) ∧
    (betaFun betaInner betaLeaf level (I.currentField level)).length = I.valueLen := by
  by_cases h : level < I.bits - 1
  · rw [currentField_inner h]
    have h' : level < betaInner.length := by omega
    refine ⟨?_, ?_⟩
    · show getI betaInner level = .ok (betaInner.getD level [])
      rw [getI_of_lt h']; simp [h']
    · show (betaInner.getD level []).length = _
      rw [List.getD_eq_getElem?_getD, List.getElem?_eq_getElem h']
      exact hib _ (List.getElem_mem h')
  · rw [currentField_leaf h]
    exact ⟨rfl, hl⟩

theorem gen_good (hf : fuel < 2 ^ 120) {alpha : List Bool} {betaInner : List (List Field64)}
    {betaLeaf : List Field255} {rand : Bytes} (hc : CtxOk ctx) (ha : alpha.length = I.bits)
    (hi : betaInner.length = I.bits - 1) (hib : ∀ x ∈ betaInner, x.length = I.valueLen)
    (hl : betaLeaf.length = I.valueLen) (hr : rand.length = 32) (hn : nonce.length = 16) :
    Good (fun e => e = .fuel) (I.gen prims fuel alpha betaInner betaLeaf ctx nonce rand)
      fun r => r.2 = [rand.take 16, rand.drop 16] ∧
        ∃ N, GenRun I prims fuel alpha
          (fun ℓ => betaFun betaInner betaLeaf ℓ (I.currentField ℓ)) ctx nonce (rand.take 16)
          (rand.drop 16) I.bits r.1 N := by
  unfold gen
  rw [raiseIf_of_not (by simpa using ha)]; simp only [Except.ok_bind']
  rw [raiseIf_of_not (by simpa using hi)]; simp only [Except.ok_bind']
  rw [raiseIf_of_not (by simpa [RAND_SIZE] using hr)]; simp only [Except.ok_bind']
  rw [raiseIf_of_not (by simpa [NONCE_SIZE] using hn)]; simp only [Except.ok_bind']
  refine (Good.forFold_range (E := fun e => e = .fuel) I.bits _ _
    (fun n st => st.seed.1.length = 16 ∧ st.seed.2.length = 16 ∧
      ∃ N, GenRun I prims fuel alpha
          (fun ℓ => betaFun betaInner betaLeaf ℓ (I.currentField ℓ)) ctx nonce (rand.take 16)
          (rand.drop 16) n st.publicShare N ∧ N n = (st.seed, st.ctrl)) ?_ ?_).bind ?_
  · exact ⟨by simp [hr], by simp [hr], fun _ => ((rand.take 16, rand.drop 16), (false, true)),
      ⟨rfl, rfl, fun ℓ h => absurd h (by omega)⟩, rfl⟩
  · rintro n hn st ⟨h1, h2, N, hN, hNn⟩
    obtain ⟨hb, hbl⟩ := betaAt_ok hi hib hl n
    refine (genLevel_good hf hc h1 h2 (List.getElem?_eq_getElem (by omega)) hb hbl).mono ?_
    rintro st' - ⟨h3, h4, cw, h5, h6⟩
    refine ⟨h3, h4, Function.update N (n + 1) (st'.seed, st'.ctrl), ⟨?_, ?_, ?_⟩, by simp⟩
    · rw [h5, List.length_append, hN.len]; rfl
    · rw [Function.update_of_ne (by omega), hN.zero]
    · intro ℓ hℓ
      rcases Nat.lt_succ_iff_lt_or_eq.1 hℓ with h | rfl
      · obtain ⟨bit, cw', a1, a2, a3⟩ := hN.step ℓ h
        refine ⟨bit, cw', a1, ?_, ?_⟩
        · rw [h5, List.getElem?_append_left (by rw [hN.len]; exact h), a2]
        · rw [Function.update_of_ne (by omega), Function.update_of_ne (by omega)]
          exact a3
      · refine ⟨_, cw, List.getElem?_eq_getElem (by omega), ?_, ?_⟩
        · rw [h5, List.getElem?_append_right (by rw [hN.len]), hN.len]; simp
        · rw [Function.update_of_ne (by omega), Function.update_self, hNn]
          exact h6
  · rintro st - ⟨-, -, N, hN, -⟩
    exact Good.ok ⟨rfl, N, hN⟩

/-! ### `eval` -/

variable {alpha : List Bool} {beta : (level : ℕ) → List (Fk (I.currentField level))}
  {key0 key1 : Bytes} {n : ℕ} {pub : List CorrectionWord} {N : ℕ → (Bytes × Bytes) × (Bool × Bool)}

theorem GenRun.ctrl_ne (h : GenRun I prims fuel alpha beta ctx nonce key0 key1 n pub N) (ℓ : ℕ)
    (hℓ : ℓ ≤ n) : (N ℓ).2.1 ≠ (N ℓ).2.2 := by
  induction ℓ with
  | zero => rw [h.zero]; simp
  | succ ℓ ih =>
    obtain ⟨bit, cw, -, -, hs⟩ := h.step ℓ (by omega)
    exact hs.ctrl_ne (ih (by omega))

/-- The state of an aggregator after `ℓ` levels along a prefix -/
def walk (I : Idpf) (prims : Prims) (fuel : ℕ) (aggId : ℕ) (pub : List CorrectionWord) (key : Bytes)
    (p : List Bool) (ctx nonce : Bytes) (ℓ : ℕ) : Res (Bytes × Bool) :=
  forFold (List.range ℓ) (key, decide (aggId ≠ 0)) (I.evalStep prims fuel pub p ctx nonce)

theorem walk_succ (I : Idpf) (prims : Prims) (fuel : ℕ) (aggId : ℕ) (pub : List CorrectionWord)
    (key : Bytes) (p : List Bool) (ctx nonce : Bytes) (ℓ : ℕ) :
    I.walk prims fuel aggId pub key p ctx nonce (ℓ + 1) =
      (I.walk prims fuel aggId pub key p ctx nonce ℓ >>= fun st =>
        I.evalStep prims fuel pub p ctx nonce st ℓ) := by
  unfold walk
  rw [List.range_succ, forFold_append]
  congr 1
  funext st
  rw [forFold_cons]
  cases I.evalStep prims fuel pub p ctx nonce st ℓ <;> rfl

theorem take_succ_eq_iff {p a : List Bool} {ℓ : ℕ} {x y : Bool} (hp : p[ℓ]? = some x)
    (ha : a[ℓ]? = some y) : p.take (ℓ + 1) = a.take (ℓ + 1) ↔ p.take ℓ = a.take ℓ ∧ x = y := by
  obtain ⟨h1, rfl⟩ := List.getElem?_eq_some_iff.1 hp
  obtain ⟨h2, rfl⟩ := List.getElem?_eq_some_iff.1 ha
  rw [List.take_succ_eq_append_getElem h1, List.take_succ_eq_append_getElem h2]
  constructor
  · intro h
    obtain ⟨h3, h4⟩ := List.append_inj h (by simp; omega)
    exact ⟨h3, by simpa using h4⟩
  · rintro ⟨h3, h4⟩
    rw [h3, h4]

theorem not_eq_of_ne {x y : Bool} (h : x ≠ y) : x = !y := by
  cases x <;> cases y <;> simp_all

theorem GenRun.walk (h : GenRun I prims fuel alpha beta ctx nonce key0 key1 n pub N) (p : List Bool)
    (ℓ : ℕ) (hℓ : ℓ ≤ n) (hp : ℓ ≤ p.length) :
    (p.take ℓ = alpha.take ℓ →
      I.walk prims fuel 0 pub key0 p ctx nonce ℓ = .ok ((N ℓ).1.1, (N ℓ).2.1) ∧
      I.walk prims fuel 1 pub key1 p ctx nonce ℓ = .ok ((N ℓ).1.2, (N ℓ).2.2)) ∧
    (p.take ℓ ≠ alpha.take ℓ →
      I.walk prims fuel 0 pub key0 p ctx nonce ℓ = I.walk prims fuel 1 pub key1 p ctx nonce ℓ) := by
  induction ℓ with
  | zero =>
    refine ⟨fun _ => ?_, fun h => absurd rfl h⟩
    rw [h.zero]
    exact ⟨rfl, rfl⟩
  | succ ℓ ih =>
    obtain ⟨ih1, ih2⟩ := ih (by omega) (by omega)
    obtain ⟨bit, cw, ha, hcw, hs⟩ := h.step ℓ (by omega)
    have hpl : p[ℓ]? = some p[ℓ] := List.getElem?_eq_getElem (by omega)
    have hne := h.ctrl_ne ℓ (by omega)
    rw [take_succ_eq_iff hpl ha, walk_succ, walk_succ]
    constructor
    · rintro ⟨h1, h2⟩
      obtain ⟨w0, w1⟩ := ih1 h1
      obtain ⟨y0, y1, e0, e1, -⟩ := hs.on hne
      rw [w0, w1]
      simp only [Except.ok_bind', evalStep]
      rw [getI_of_some hpl, getI_of_some hcw]
      simp only [Except.ok_bind', h2]
      rw [e0, e1]
      exact ⟨rfl, rfl⟩
    · intro hn
      by_cases h1 : p.take ℓ = alpha.take ℓ
      · have h2 : p[ℓ] = !bit := not_eq_of_ne fun h' => hn ((take_succ_eq_iff hpl ha).2 ⟨h1, h'⟩)
        obtain ⟨w0, w1⟩ := ih1 h1
        rw [w0, w1]
        simp only [Except.ok_bind', evalStep]
        rw [getI_of_some hpl, getI_of_some hcw]
        simp only [Except.ok_bind', h2]
        rw [hs.off hne]
      · rw [ih2 h1]

/-- `evalPrefix` without the negation -/
def evalRaw (I : Idpf) (prims : Prims) (fuel : ℕ) (aggId : ℕ) (pub : List CorrectionWord) (key : Bytes)
    (level : ℕ) (ctx nonce : Bytes) (p : List Bool) : Res (List (Fk (I.currentField level))) := do
  let (seed, ctrl) ← I.walk prims fuel aggId pub key p ctx nonce level
  let bit ← getI p level
  let cw ← getI pub level
  let (_, _, y) ← I.evalNext prims fuel seed ctrl cw level bit ctx nonce
  return y

theorem evalPrefix_eq (I : Idpf) (prims : Prims) (fuel : ℕ) (aggId : ℕ) (pub : List CorrectionWord)
    (key : Bytes) (level : ℕ) (ctx nonce : Bytes) {p : List Bool} (hp : p.length = level + 1) :
    I.evalPrefix prims fuel aggId pub key level ctx nonce p =
      (I.evalRaw prims fuel aggId pub key level ctx nonce p >>= fun y =>
        .ok (if aggId = 0 then y else vecNeg y)) := by
  unfold evalPrefix evalRaw walk
  rw [raiseIf_of_not (by simpa using hp)]
  simp only [Except.ok_bind']
  cases forFold (List.range level) (key, decide (aggId ≠ 0)) (I.evalStep prims fuel pub p ctx nonce) with
  | error e => rfl
  | ok st =>
    simp only [Except.ok_bind']
    cases getI p level with
    | error e => rfl
    | ok bit =>
      simp only [Except.ok_bind']
      cases getI pub level with
      | error e => rfl
      | ok cw =>
        simp only [Except.ok_bind']
        cases I.evalNext prims fuel st.1 st.2 cw level bit ctx nonce with
        | error e => rfl
        | ok r =>
          simp only [Except.ok_bind', Except.pure_eq']
          split <;> rfl

theorem GenRun.raw_on (h : GenRun I prims fuel alpha beta ctx nonce key0 key1 n pub N)
    {p : List Bool} (hl : level < n) (hp : p.length = level + 1) (hpa : p = alpha.take (level + 1)) :
    ∃ y0 y1, I.evalRaw prims fuel 0 pub key0 level ctx nonce p = .ok y0 ∧
      I.evalRaw prims fuel 1 pub key1 level ctx nonce p = .ok y1 ∧
      y0.length = I.valueLen ∧ y1.length = I.valueLen ∧
      List.zipWith (· + ·) y0 (vecNeg y1) = beta level := by
  obtain ⟨bit, cw, ha, hcw, hs⟩ := h.step level hl
  have hpl : p[level]? = some p[level] := List.getElem?_eq_getElem (by omega)
  have hpa' : p.take (level + 1) = alpha.take (level + 1) := by rw [← hpa, ← hp]; simp
  obtain ⟨h1, h2⟩ := (take_succ_eq_iff hpl ha).1 hpa'
  obtain ⟨w0, w1⟩ := (h.walk p level hl.le (by omega)).1 h1
  obtain ⟨y0, y1, e0, e1, l0, l1, hb⟩ := hs.on (h.ctrl_ne level hl.le)
  refine ⟨y0, y1, ?_, ?_, l0, l1, hb⟩
  · unfold evalRaw
    rw [w0, getI_of_some hpl, getI_of_some hcw]
    simp only [Except.ok_bind', h2]
    rw [e0]; rfl
  · unfold evalRaw
    rw [w1, getI_of_some hpl, getI_of_some hcw]
    simp only [Except.ok_bind', h2]
    rw [e1]; rfl

theorem GenRun.raw_off (h : GenRun I prims fuel alpha beta ctx nonce key0 key1 n pub N)
    {p : List Bool} (hl : level < n) (hp : p.length = level + 1) (hpa : p ≠ alpha.take (level + 1)) :
    I.evalRaw prims fuel 0 pub key0 level ctx nonce p =
      I.evalRaw prims fuel 1 pub key1 level ctx nonce p := by
  obtain ⟨bit, cw, ha, hcw, hs⟩ := h.step level hl
  have hpl : p[level]? = some p[level] := List.getElem?_eq_getElem (by omega)
  have hpa' : p.take (level + 1) ≠ alpha.take (level + 1) := by
    rw [← hp, List.take_length, hp]; exact hpa
  rw [Ne, take_succ_eq_iff hpl ha] at hpa'
  unfold evalRaw
  by_cases h1 : p.take level = alpha.take level
  · have h2 : p[level] = !bit := not_eq_of_ne fun h' => hpa' ⟨h1, h'⟩
    obtain ⟨w0, w1⟩ := (h.walk p level hl.le (by omega)).1 h1
    rw [w0, w1, getI_of_some hpl, getI_of_some hcw]
    simp only [Except.ok_bind', h2]
    rw [hs.off (h.ctrl_ne level hl.le)]
  · rw [(h.walk p level hl.le (by omega)).2 h1]

/-! ### Totality of `eval` -/

/-- A public share of the right shape: a correction word for each level, with a seed of the right size
and enough payload. -/
def Shaped (I : Idpf) (pub : List CorrectionWord) : Prop :=
  pub.length = I.bits ∧ ∀ cw ∈ pub, cw.seedCw.length = 16 ∧ I.valueLen ≤ cw.wCw.2.length

theorem GenRun.shaped (h : GenRun I prims fuel alpha beta ctx nonce key0 key1 I.bits pub N) :
    I.Shaped pub := by
  refine ⟨h.len, fun cw hcw => ?_⟩
  obtain ⟨ℓ, hℓ, rfl⟩ := List.mem_iff_getElem.1 hcw
  obtain ⟨bit, cw, -, h2, hs⟩ := h.step ℓ (by rw [← h.len]; exact hℓ)
  rw [List.getElem?_eq_getElem hℓ, Option.some.injEq] at h2
  rw [h2]
  obtain ⟨s0, t0, s1, t1, w0, w1, w, -, -, a1, a2, a3, a4, a5, -, a6, -, -, -, -, -, -, -, a7, -⟩ := hs.ex
  constructor
  · rw [a5, xor_length, pick_length a1 a2, pick_length a3 a4]; rfl
  · rw [a6]; exact a7.ge

theorem evalNext_good (hf : fuel < 2 ^ 120) (hc : CtxOk ctx) {s : Bytes} {c : Bool}
    (hs : s.length = 16) (hcs : cw.seedCw.length = 16) (hcw : I.valueLen ≤ cw.wCw.2.length) :
    Good (fun e => e = .fuel) (I.evalNext prims fuel s c cw level bit ctx nonce)
      fun r => r.1.length = 16 ∧ r.2.2.length = I.valueLen := by
  rw [evalNext_eq]
  obtain ⟨e, t, h1, h2, h3⟩ := I.extend_ok prims fuel level nonce hs hc
  rw [h1]
  simp only [Except.ok_bind', finish]
  refine (I.convert_good prims fuel hf level nonce (child_length h2 h3 hcs) hc).bind ?_
  rintro ⟨ns, y⟩ - ⟨h4, h5⟩
  dsimp only at h4 h5
  simp only
  split
  · rw [addLoop y _ (by rw [castVec_length]; omega)]
    refine Good.ok ⟨h4, ?_⟩
    simp [h5, castVec_length, hcw]
  · exact Good.ok ⟨h4, h5⟩

theorem evalPrefix_good (hf : fuel < 2 ^ 120) (hc : CtxOk ctx) (hpub : I.Shaped pub) {key : Bytes}
    (hk : key.length = 16) (aggId : ℕ) (hl : level < I.bits) {p : List Bool} (hp : p.length = level + 1) :
    Good (fun e => e = .fuel) (I.evalPrefix prims fuel aggId pub key level ctx nonce p)
      fun y => y.length = I.valueLen := by
  rw [evalPrefix_eq _ _ _ _ _ _ _ _ _ hp]
  refine Good.bind (Q := fun y => y.length = I.valueLen) ?_ fun y _ hy => Good.ok (by
    split
    · exact hy
    · simpa [vecNeg] using hy)
  unfold evalRaw walk
  refine (Good.forFold_range (E := fun e => e = .fuel) level _ _ (fun _ st => st.1.length = 16) hk
    ?_).bind ?_
  · intro i hi st hst
    have hi' : i < pub.length := by rw [hpub.1]; omega
    unfold evalStep
    rw [getI_of_lt (show i < p.length by omega), getI_of_lt hi']
    simp only [Except.ok_bind']
    obtain ⟨h1, h2⟩ := hpub.2 _ (List.getElem_mem hi')
    exact (evalNext_good hf hc hst h1 h2).bind fun r _ hr => Good.ok hr.1
  · intro st _ hst
    have hi' : level < pub.length := by rw [hpub.1]; omega
    rw [getI_of_lt (show level < p.length by omega), getI_of_lt hi']
    simp only [Except.ok_bind']
    obtain ⟨h1, h2⟩ := hpub.2 _ (List.getElem_mem hi')
    exact (evalNext_good hf hc hst h1 h2).bind fun r _ hr => Good.ok hr.2

theorem eval_eq (I : Idpf) (prims : Prims) (fuel : ℕ) {aggId : ℕ} (ha : aggId < 2) (pub : List CorrectionWord)
    (key : Bytes) {level : ℕ} (hl : level < I.bits) {prefixes : List (List Bool)} (hn : prefixes.Nodup)
    (ctx nonce : Bytes) :
    I.eval prims fuel aggId pub key level prefixes ctx nonce =
      mapRes (I.evalPrefix prims fuel aggId pub key level ctx nonce) prefixes := by
  unfold eval
  rw [raiseIf_of_not (by simp [SHARES]; omega), raiseIf_of_not (by simp; omega),
    raiseIf_of_not (by rw [hn.dedup]; simp)]
  rfl

theorem beta_spec {I : Idpf} {valueLen bits : ℕ} (hI : I = ⟨valueLen, bits⟩)
    {betaInner : List (List Field64)} {betaLeaf : List Field255} (hbi : betaInner.length = bits - 1)
    {level : ℕ} :
    Spec.beta bits betaInner betaLeaf level =
      some ((betaFun betaInner betaLeaf level (I.currentField level)).map PyField.toNat) := by
  subst hI
  unfold Spec.beta
  by_cases h : level < bits - 1
  · rw [if_pos h, currentField_inner (I := ⟨valueLen, bits⟩) h]
    have h' : level < betaInner.length := by omega
    show _ = some ((betaInner.getD level []).map PyField.toNat)
    simp [h']
  · rw [if_neg h, currentField_leaf (I := ⟨valueLen, bits⟩) h]
    rfl

theorem init_ok {valueLen bits : ℕ} {I : Idpf} (h : Idpf.init valueLen bits = .ok I) :
    I = ⟨valueLen, bits⟩ ∧ 0 < valueLen ∧ 0 < bits := by
  unfold Idpf.init at h
  rw [Except.bind_eq_ok] at h
  obtain ⟨u, h1, h⟩ := h
  rw [Except.bind_eq_ok] at h
  obtain ⟨u', h2, h⟩ := h
  cases h
  exact ⟨rfl, by simpa using h1, by simpa using h2⟩


theorem eval_eq_int (I : Idpf) (prims : Prims) (fuel : ℕ) {aggId level : ℤ} (ha : aggId = 0 ∨ aggId = 1)
    (pub : List CorrectionWord) (key : Bytes) (hl : 0 ≤ level ∧ level < I.bits)
    {prefixes : List (List Bool)} (hn : prefixes.Nodup) (ctx nonce : Bytes) :
    I.eval prims fuel aggId pub key level prefixes ctx nonce =
      mapRes (I.evalPrefix prims fuel aggId.toNat pub key level.toNat ctx nonce) prefixes := by
  unfold eval
  rw [raiseIf_of_not (by simp [SHARES]; omega), raiseIf_of_not (by simp; omega),
    raiseIf_of_not (by rw [hn.dedup]; simp)]
  rfl

theorem nodup_iff_dedup (l : List (List Bool)) : l.dedup.length = l.length ↔ l.Nodup := by
  constructor
  · intro h
    have := List.Sublist.eq_of_length (List.dedup_sublist l) h
    rw [← this]; exact List.nodup_dedup l
  · intro h; rw [h.dedup]

theorem eval_rejects (I : Idpf) (prims : Prims) (fuel : ℕ) {aggId level : ℤ}
    (pub : List CorrectionWord) (key : Bytes) {prefixes : List (List Bool)} (ctx nonce : Bytes)
    (h : (aggId ≠ 0 ∧ aggId ≠ 1) ∨ level < 0 ∨ (I.bits : ℤ) ≤ level ∨ ¬ prefixes.Nodup) :
    ∃ m, I.eval prims fuel aggId pub key level prefixes ctx nonce = .error (.value m) := by
  unfold eval
  by_cases h1 : 0 ≤ aggId ∧ aggId < 2
  · rw [raiseIf_of_not (by simpa [SHARES] using h1)]
    by_cases h2 : 0 ≤ level ∧ level < I.bits
    · rw [raiseIf_of_not (by simpa using h2)]
      have h3 : ¬ prefixes.Nodup := by
        rcases h with h | h | h | h
        · omega
        · omega
        · omega
        · exact h
      rw [raiseIf_of (by rw [Ne, nodup_iff_dedup]; exact h3)]
      exact ⟨_, rfl⟩
    · rw [raiseIf_of (by simpa using h2)]
      exact ⟨_, rfl⟩
  · rw [raiseIf_of (by simpa [SHARES] using h1)]
    exact ⟨_, rfl⟩

theorem evalPrefix_length {aggId : ℕ} {key : Bytes} {p : List Bool}
    {y : List (Fk (I.currentField level))}
    (h : I.evalPrefix prims fuel aggId pub key level ctx nonce p = .ok y) : p.length = level + 1 := by
  unfold evalPrefix at h
  rw [Except.bind_eq_ok] at h
  obtain ⟨u, h, -⟩ := h
  rw [raiseIf_eq_ok] at h
  simpa using h

theorem mapRes_singleton {α β : Type} (f : α → Res β) (a : α) (b : β) :
    mapRes f [a] = .ok [b] ↔ f a = .ok b := by
  rw [mapRes_ok_iff]; simp

theorem eval_iff (prims : Prims) (fuel : ℕ) (I : Idpf) (aggId level : ℤ) (pub : List CorrectionWord)
    (key : Bytes) (prefixes : List (List Bool)) (ctx nonce : Bytes)
    (out : List (List (Fk (I.currentField level.toNat)))) :
    I.eval prims fuel aggId pub key level prefixes ctx nonce = .ok out ↔
      (aggId = 0 ∨ aggId = 1) ∧ (0 ≤ level ∧ level < I.bits) ∧ prefixes.Nodup ∧
      (∀ p ∈ prefixes, (p.length : ℤ) = level + 1) ∧
      List.Forall₂ (fun p y => I.eval prims fuel aggId pub key level [p] ctx nonce = .ok [y])
        prefixes out := by
  by_cases hbad : (aggId ≠ 0 ∧ aggId ≠ 1) ∨ level < 0 ∨ (I.bits : ℤ) ≤ level ∨ ¬ prefixes.Nodup
  · obtain ⟨m, hm⟩ := eval_rejects I prims fuel pub key ctx nonce hbad
    rw [hm]
    constructor
    · intro h; cases h
    · rintro ⟨h1, h2, h3, -⟩
      rcases hbad with h | h | h | h
      · omega
      · omega
      · omega
      · exact absurd h3 h
  · push Not at hbad
    obtain ⟨h1, h2, h3, h4⟩ := hbad
    have h1' : aggId = 0 ∨ aggId = 1 := by
      by_cases h : aggId = 0
      · exact .inl h
      · exact .inr (h1 h)
    rw [eval_eq_int I prims fuel h1' pub key ⟨h2, h3⟩ h4, mapRes_ok_iff]
    have hs : ∀ p y, I.eval prims fuel aggId pub key level [p] ctx nonce = .ok [y] ↔
        I.evalPrefix prims fuel aggId.toNat pub key level.toNat ctx nonce p = .ok y := fun p y => by
      rw [eval_eq_int I prims fuel h1' pub key ⟨h2, h3⟩ (List.nodup_singleton p), mapRes_singleton]
    simp only [hs]
    refine ⟨fun h => ⟨h1', ⟨h2, h3⟩, h4, fun p hp => ?_, h⟩, fun h => h.2.2.2.2⟩
    obtain ⟨i, hi, rfl⟩ := List.mem_iff_getElem.1 hp
    have := evalPrefix_length (h.get hi (by rw [← h.length_eq]; exact hi))
    simp only [List.get_eq_getElem] at this
    rw [this]
    omega

end Idpf
end Vdaf
