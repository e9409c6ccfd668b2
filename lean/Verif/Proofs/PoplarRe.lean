import Verif.Proofs.PoplarGood

/-! The streams of a report with other values. -/

set_option linter.unusedSectionVars false

namespace Vdaf.PO
open Spec (bytesAt clearBit lowBit poplarIdpf levelKind sample)

/-! ### The expansion of the honest Aggregator's node -/

/-- One half of the expansion, from the correction word and the cleared half `c` on the path -/
def mkHalf (E : Str) (cs : Bytes) (cc : Bool × Bool) (a : Bool) (c : Bytes) (bit : Bool) : Bytes :=
  putBit (Bool.xor (Bool.xor (lowBit (half E bit)) (Idpf.pick cc bit)) (bit == a))
    (if bit = a then c else xor (clearBit (half E bit)) cs)

theorem mkHalf_length {E : Str} {cs : Bytes} {cc : Bool × Bool} {a : Bool} {c : Bytes} (hc : c.length = 16) (hs : cs.length = 16)
    (bit : Bool) : (mkHalf E cs cc a c bit).length = 16 := by
  unfold mkHalf
  rw [putBit_length]
  split
  · exact hc
  · exact xor_len (by rw [clearBit_length, half_length]) hs

theorem mkHalf_of {E e : Str} {a : Bool} (bit : Bool) :
    half e bit = mkHalf E (cwSeed E e a) (cwCtrl E e a) a (clearBit (half e a)) bit := by
  have h1 : Bool.xor (Bool.xor (lowBit (half E bit)) (Idpf.pick (cwCtrl E e a) bit)) (bit == a) = lowBit (half e bit) := by
    unfold cwCtrl Idpf.pick
    cases bit <;> cases a <;> simp
  have h2 : (if bit = a then clearBit (half e a) else xor (clearBit (half E bit)) (cwSeed E e a)) = clearBit (half e bit) := by
    split
    · rename_i h; rw [h]
    · rename_i h
      have : (!a) = bit := by cases bit <;> cases a <;> simp_all
      unfold cwSeed
      rw [this]
      exact xor_cancel (by rw [clearBit_length, clearBit_length, half_length, half_length])
  unfold mkHalf
  rw [h1, h2, putBit_self]

theorem mkHalf_spec {E e : Str} {cs : Bytes} {cc : Bool × Bool} {a : Bool} {c : Bytes} (hcs : cs.length = 16) (hl : lowBit cs = false)
    (hc : c.length = 16) (hlc : lowBit c = false) (h : ∀ bit, half e bit = mkHalf E cs cc a c bit) :
    cwSeed E e a = cs ∧ cwCtrl E e a = cc ∧ clearBit (half e a) = c := by
  have hne : ∀ bit, (if bit = a then c else xor (clearBit (half E bit)) cs) ≠ [] := by
    intro bit hh
    have := congrArg List.length hh
    have h2 := mkHalf_length (E := E) (cc := cc) (a := a) hc hcs bit
    unfold mkHalf at h2
    rw [putBit_length, hh] at h2
    simp at h2
  have hlow : ∀ bit, lowBit (half e bit) = Bool.xor (Bool.xor (lowBit (half E bit)) (Idpf.pick cc bit)) (bit == a) := by
    intro bit
    rw [h bit]
    unfold mkHalf
    rw [lowBit_putBit _ (hne bit)]
  refine ⟨?_, ?_, ?_⟩
  · unfold cwSeed
    rw [h (!a)]
    unfold mkHalf
    rw [clearBit_putBit, if_neg (by cases a <;> simp), clearBit_of_lowBit (x := xor (clearBit (half E !a)) cs)
      (lowBit_xor (lowBit_clearBit _) hl (by rw [clearBit_length, half_length, hcs]))]
    exact xor_cancel (by rw [clearBit_length, half_length, hcs])
  · unfold cwCtrl
    rw [hlow false, hlow true]
    unfold Idpf.pick
    obtain ⟨c0, c1⟩ := cc
    cases a <;> simp
  · rw [h a]
    unfold mkHalf
    rw [clearBit_putBit, if_pos rfl, clearBit_of_lowBit hlc]

/-! ### Locality -/

section
variable {F : Type} [PyField F]

theorem writeAt_agree {s s' : Str} {pos : ℕ} {c : Bytes} {i : ℕ} (h : s i = s' i) : writeAt s pos c i = writeAt s' pos c i := by
  unfold writeAt
  split
  · rfl
  · exact h

theorem reS_after {fuel pos : ℕ} {ys : List F} {s s' : Str} (h : ∀ i, pos ≤ i → s i = s' i) {i : ℕ} (hi : pos ≤ i) :
    reS F fuel pos ys s i = reS F fuel pos ys s' i := by
  induction fuel generalizing pos ys s s' with
  | zero => exact h i hi
  | succ fuel ih =>
    cases ys with
    | nil => exact h i hi
    | cons y ys =>
      have e1 : bytesAt s pos (PyField.encSize F) = bytesAt s' pos (PyField.encSize F) := bytesAt_agree fun i h1 _ => h i h1
      cases hx : sample F (bytesAt s pos (PyField.encSize F)) with
      | none =>
        have hx' := e1 ▸ hx
        simp only [reS, hx, hx']
        by_cases hc : i < pos + PyField.encSize F
        · rw [reS_before hc, reS_before hc, h i hi]
        · exact ih (fun i hi => h i (by omega)) (by omega)
      | some x =>
        have hx' := e1 ▸ hx
        simp only [reS, hx, hx']
        rw [e1]
        by_cases hc : i < pos + PyField.encSize F
        · rw [reS_before hc, reS_before hc]
          exact writeAt_agree (h i hi)
        · exact ih (fun i hi => writeAt_agree (h i (by omega))) (by omega)

theorem reS_local {fuel pos n : ℕ} {ys v : List F} {s s' : Str} {p : ℕ} (hs : sampS F s fuel pos n = .ok (v, p)) (hy : ys.length = n)
    (h : ∀ i, pos ≤ i → i < p → s i = s' i) {i : ℕ} (h1 : pos ≤ i) (h2 : i < p) :
    reS F fuel pos ys s i = reS F fuel pos ys s' i := by
  induction fuel generalizing pos ys s s' n v with
  | zero => exact h i h1 h2
  | succ fuel ih =>
    cases ys with
    | nil => exact h i h1 h2
    | cons y ys =>
      obtain ⟨n, rfl⟩ : ∃ m, n = m + 1 := ⟨ys.length, by simpa using hy.symm⟩
      cases hx : sample F (bytesAt s pos (PyField.encSize F)) with
      | none =>
        rw [sampS_none hx] at hs
        have hp := (sampS_ok hs).2.1
        have e1 : bytesAt s pos (PyField.encSize F) = bytesAt s' pos (PyField.encSize F) :=
          bytesAt_agree fun i h1 h2 => h i h1 (by omega)
        have hx' := e1 ▸ hx
        simp only [reS, hx, hx']
        by_cases hc : i < pos + PyField.encSize F
        · rw [reS_before hc, reS_before hc, h i h1 h2]
        · exact ih hs hy (fun i h1 h2 => h i (by omega) h2) (by omega)
      | some x =>
        rw [sampS_some hx, Except.bind_eq_ok] at hs
        obtain ⟨⟨w, q⟩, h4, h5⟩ := hs
        cases h5
        have hp := (sampS_ok h4).2.1
        dsimp only at *
        have e1 : bytesAt s pos (PyField.encSize F) = bytesAt s' pos (PyField.encSize F) :=
          bytesAt_agree fun i h1 h2 => h i h1 (by omega)
        have hx' := e1 ▸ hx
        simp only [reS, hx, hx']
        rw [e1]
        by_cases hc : i < pos + PyField.encSize F
        · rw [reS_before hc, reS_before hc]
          exact writeAt_agree (h i h1 h2)
        · have hl := (moveChunk_spec (y := y) (bytesAt_len s' pos (PyField.encSize F)) hx').1
          refine ih (sampS_local h4 fun i i1 _ => ?_) (by simpa using hy)
            (fun i h1 h2 => writeAt_agree (h i (by omega) h2)) (by omega)
          exact (writeAt_ne (Or.inr (by omega))).symm

end

/-! ### The values of a report -/

/-- The values that are read from the streams of a report -/
structure Z (bits : ℕ) where
  ks : List (Fk .inner)
  kl : List (Fk .leaf)
  u : List (Fk .inner)
  w : List (Fk .leaf)
  e : ℕ → Bool → Bytes
  v : (ℓ : ℕ) → List (Fk (levelKind bits ℓ))

structure Z.Sized {bits : ℕ} (z : Z bits) : Prop where
  ks : z.ks.length = bits - 1
  kl : z.kl.length = 1
  u : z.u.length = 3 * (bits - 1)
  w : z.w.length = 3
  e : ∀ ℓ < bits, ∀ bit, (z.e ℓ bit).length = 16
  v : ∀ ℓ < bits, (z.v ℓ).length = 2

structure Got (bits fuel : ℕ) (f : Fresh) (z : Z bits) (p1 p2 : ℕ) : Prop where
  ks : sampS (Fk .inner) f.sh fuel 0 (bits - 1) = .ok (z.ks, p1)
  kl : sampS (Fk .leaf) f.sh fuel p1 1 = .ok (z.kl, p2)
  u : ∃ p, sampS (Fk .inner) f.ci fuel 0 (3 * (bits - 1)) = .ok (z.u, p)
  w : ∃ p, sampS (Fk .leaf) f.cl fuel 0 3 = .ok (z.w, p)
  e : ∀ ℓ < bits, ∀ bit, half (f.node ℓ 0) bit = z.e ℓ bit
  v : ∀ ℓ < bits, ∃ p, sampS (Fk (levelKind bits ℓ)) (f.node ℓ 1) fuel 16 2 = .ok (z.v ℓ, p)

/-- The streams with other values -/
noncomputable def Re (bits fuel p1 : ℕ) (z : Z bits) (f : Fresh) : Fresh where
  sh := reS (Fk .leaf) fuel p1 z.kl (reS (Fk .inner) fuel 0 z.ks f.sh)
  ci := reS (Fk .inner) fuel 0 z.u f.ci
  cl := reS (Fk .leaf) fuel 0 z.w f.cl
  node ℓ x := if ℓ < bits then
      (if x = 0 then writeAt (writeAt (f.node ℓ x) 0 (z.e ℓ false)) 16 (z.e ℓ true)
      else if x = 1 then reS (Fk (levelKind bits ℓ)) fuel 16 (z.v ℓ) (f.node ℓ x) else f.node ℓ x)
    else f.node ℓ x

section
variable {bits fuel p1 p2 : ℕ} {z z' : Z bits} {f : Fresh}

theorem Got.sized (h : Got bits fuel f z p1 p2) : z.Sized := by
  obtain ⟨p, hu⟩ := h.u
  obtain ⟨q, hw⟩ := h.w
  refine ⟨(sampS_ok h.ks).1, (sampS_ok h.kl).1, (sampS_ok hu).1, (sampS_ok hw).1, ?_, ?_⟩
  · intro ℓ hl bit
    rw [← h.e ℓ hl bit, half_length]
  · intro ℓ hl
    obtain ⟨p, hv⟩ := h.v ℓ hl
    exact (sampS_ok hv).1

theorem Re_congr (h1 : z.ks = z'.ks) (h2 : z.kl = z'.kl) (h3 : z.u = z'.u) (h4 : z.w = z'.w)
    (h5 : ∀ ℓ < bits, ∀ bit, z.e ℓ bit = z'.e ℓ bit) (h6 : ∀ ℓ < bits, z.v ℓ = z'.v ℓ) :
    Re bits fuel p1 z f = Re bits fuel p1 z' f := by
  unfold Re
  rw [h1, h2, h3, h4]
  congr 1
  funext ℓ x
  split
  · rename_i hl
    rw [h5 ℓ hl, h5 ℓ hl, h6 ℓ hl]
  · rfl

theorem half_write {s : Str} {a c : Bytes} (ha : a.length = 16) (hc : c.length = 16) (bit : Bool) :
    half (writeAt (writeAt s 0 a) 16 c) bit = if bit then c else a := by
  unfold half
  cases bit with
  | true =>
    have := bytesAt_writeAt (writeAt s 0 a) 16 c
    rw [hc] at this
    exact this
  | false =>
    have := bytesAt_writeAt s 0 a
    rw [ha] at this
    refine Eq.trans ?_ this
    exact bytesAt_agree fun i _ hi => writeAt_ne (Or.inl (by simpa using hi))

theorem write_half {s : Str} {a c : Bytes} (ha : a.length = 16) (hc : c.length = 16) :
    writeAt (writeAt (writeAt (writeAt s 0 a) 16 c) 0 (half s false)) 16 (half s true) = s := by
  rw [writeAt_comm (p := 16) (q := 0) (by rw [half_length]), writeAt_writeAt (by rw [half_length, hc]),
    writeAt_writeAt (by rw [half_length, ha])]
  unfold half
  rw [if_neg (by simp), if_pos rfl, writeAt_bytesAt, writeAt_bytesAt]

/-- The streams have the other values, and the first values give the first streams again. -/
theorem Got.re (h : Got bits fuel f z p1 p2) (hz : z'.Sized) :
    Got bits fuel (Re bits fuel p1 z' f) z' p1 p2 ∧ Re bits fuel p1 z (Re bits fuel p1 z' f) = f ∧
      ∀ i, p2 ≤ i → (Re bits fuel p1 z' f).sh i = f.sh i := by
  obtain ⟨p, hu⟩ := h.u
  obtain ⟨q, hw⟩ := h.w
  obtain ⟨k1, k2, k3⟩ := reS_spec h.ks hz.ks
  have hkl : sampS (Fk .leaf) (reS (Fk .inner) fuel 0 z'.ks f.sh) fuel p1 1 = .ok (z.kl, p2) :=
    sampS_local h.kl fun i hi _ => (k3 i hi).symm
  obtain ⟨l1, l2, l3⟩ := reS_spec hkl hz.kl
  obtain ⟨u1, u2, u3⟩ := reS_spec hu hz.u
  obtain ⟨w1, w2, w3⟩ := reS_spec hw hz.w
  have hp := (sampS_ok h.ks).2.1
  have hp2 := (sampS_ok h.kl).2.1
  refine ⟨⟨?_, l1, ⟨p, u1⟩, ⟨q, w1⟩, ?_, ?_⟩, ?_, ?_⟩
  · exact sampS_local k1 fun i _ hi => (reS_before hi).symm
  · intro ℓ hl bit
    show half (if ℓ < bits then _ else _) bit = _
    rw [if_pos hl, if_pos rfl, half_write (hz.e ℓ hl _) (hz.e ℓ hl _)]
    cases bit <;> rfl
  · intro ℓ hl
    obtain ⟨p, hv⟩ := h.v ℓ hl
    refine ⟨p, ?_⟩
    show sampS _ (if ℓ < bits then _ else _) _ _ _ = _
    rw [if_pos hl, if_neg (by simp), if_pos rfl]
    exact (reS_spec hv (hz.v ℓ hl)).1
  · unfold Re
    obtain ⟨sh, ci, cl, node⟩ := f
    dsimp only at *
    congr 1
    · -- the two samplings of one stream
      obtain ⟨s1, hs1⟩ : ∃ s1, s1 = reS (Fk .inner) fuel 0 z'.ks sh := ⟨_, rfl⟩
      rw [← hs1] at k1 k2 k3 hkl l1 l2 l3 ⊢
      have b0 : ∀ i, 0 ≤ i → i < p1 → s1 i = reS (Fk .leaf) fuel p1 z'.kl s1 i := fun i _ hi => (reS_before hi).symm
      have k1' := sampS_local k1 b0
      have hA := (reS_spec k1' (ys := z.ks) ((sampS_ok h.ks).1)).2.2
      funext i
      by_cases hi : i < p1
      · rw [reS_before hi, ← reS_local k1 (sampS_ok h.ks).1 b0 (Nat.zero_le i) hi, k2]
      · rw [reS_after (s' := reS (Fk .leaf) fuel p1 z'.kl s1) (fun i hi => hA i hi) (by omega), l2, k3 i (by omega)]
    · funext ℓ x
      by_cases hl : ℓ < bits
      · simp only [if_pos hl]
        by_cases h0 : x = 0
        · simp only [if_pos h0]
          subst h0
          rw [← h.e ℓ hl false, ← h.e ℓ hl true]
          exact write_half (hz.e ℓ hl _) (hz.e ℓ hl _)
        · simp only [if_neg h0]
          by_cases h1 : x = 1
          · simp only [if_pos h1]
            subst h1
            obtain ⟨p, hv⟩ := h.v ℓ hl
            exact (reS_spec hv (hz.v ℓ hl)).2.1
          · simp only [if_neg h1]
      · simp only [if_neg hl]
  · intro i hi
    show reS (Fk .leaf) fuel p1 z'.kl (reS (Fk .inner) fuel 0 z'.ks f.sh) i = _
    rw [l3 i hi, k3 i (by omega)]

end

end Vdaf.PO
