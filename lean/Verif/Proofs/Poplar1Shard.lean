import Verif.Proofs.Poplar1Agg
import Verif.Proofs.Prio3Base
import Mathlib.Tactic.LinearCombination

/-! Sharding in Poplar1. -/

set_option linter.unusedSectionVars false

namespace Vdaf

/-- The IDPF outputs of the two parties sum to the programmed value on the path and to zero elsewhere. -/
theorem Idpf.GenRun.eval_good {I : Idpf} {prims : Prims} {fuel : ℕ} {alpha : List Bool}
    {beta : (level : ℕ) → List (Fk (I.currentField level))} {ctx nonce key0 key1 : Bytes}
    {pub : List CorrectionWord} {N : ℕ → (Bytes × Bytes) × (Bool × Bool)}
    (h : Idpf.GenRun I prims fuel alpha beta ctx nonce key0 key1 I.bits pub N)
    (hf : fuel < 2 ^ 120) (hctx : Idpf.CtxOk ctx) (h0 : key0.length = 16) (h1 : key1.length = 16)
    {level : ℕ} (hl : level < I.bits) {prefixes : List (List Bool)} (hnd : prefixes.Nodup)
    (hpl : ∀ p ∈ prefixes, p.length = level + 1) :
    (Good (fun e => e = .fuel) (I.eval prims fuel (0 : ℕ) pub key0 level prefixes ctx nonce) fun out =>
      out.length = prefixes.length ∧ ∀ y ∈ out, y.length = I.valueLen) ∧
    (Good (fun e => e = .fuel) (I.eval prims fuel (1 : ℕ) pub key1 level prefixes ctx nonce) fun out =>
      out.length = prefixes.length ∧ ∀ y ∈ out, y.length = I.valueLen) ∧
    ∀ out0 out1, I.eval prims fuel (0 : ℕ) pub key0 level prefixes ctx nonce = .ok out0 →
      I.eval prims fuel (1 : ℕ) pub key1 level prefixes ctx nonce = .ok out1 →
      ∀ i (hi : i < prefixes.length) (hi0 : i < out0.length) (hi1 : i < out1.length), ∀ t < I.valueLen,
        coef out0[i] t + coef out1[i] t =
          if prefixes[i] = alpha.take (level + 1) then coef (beta level) t else 0 := by
  have e0 := Idpf.eval_eq I prims fuel (aggId := 0) (by decide) pub key0 hl hnd ctx nonce
  have e1 := Idpf.eval_eq I prims fuel (aggId := 1) (by decide) pub key1 hl hnd ctx nonce
  have hgood : ∀ (aggId : ℕ) (key : Bytes), key.length = 16 → _ := fun aggId key hk =>
    (Good.mapRes (E := fun e => e = .fuel) prefixes
      (Idpf.evalPrefix I prims fuel aggId pub key level ctx nonce)
      (fun _ y => y.length = I.valueLen)
      fun p hp => Idpf.evalPrefix_good hf hctx h.shaped hk aggId hl (hpl p hp))
  have hsh : ∀ (aggId : ℕ) (key : Bytes), key.length = 16 →
      Good (fun e => e = .fuel) (mapRes (Idpf.evalPrefix I prims fuel aggId pub key level ctx nonce) prefixes)
        fun out => out.length = prefixes.length ∧ ∀ y ∈ out, y.length = I.valueLen := by
    intro aggId key hk
    refine (hgood aggId key hk).mono fun out _ q => ⟨q.length_eq.symm, fun y hy => ?_⟩
    obtain ⟨i, hi, rfl⟩ := List.mem_iff_getElem.1 hy
    exact (q.get (by rw [q.length_eq]; exact hi) hi).2
  refine ⟨by rw [e0]; exact hsh 0 key0 h0, by rw [e1]; exact hsh 1 key1 h1, ?_⟩
  intro out0 out1 r0 r1 i hi hi0 hi1 t ht
  rw [e0] at r0
  rw [e1] at r1
  obtain ⟨p0, l0⟩ := ((hgood 0 key0 h0).elim r0).get hi hi0
  obtain ⟨p1, l1⟩ := ((hgood 1 key1 h1).elim r1).get hi hi1
  simp only [List.get_eq_getElem] at p0 p1 l0 l1
  have hpi := hpl _ (List.getElem_mem hi)
  rw [Idpf.evalPrefix_eq _ _ _ _ _ _ _ _ _ hpi, Except.bind_eq_ok] at p0 p1
  obtain ⟨y0, q0, hy0⟩ := p0
  obtain ⟨y1, q1, hy1⟩ := p1
  simp only [if_true, Nat.one_ne_zero, if_false, Except.ok.injEq] at hy0 hy1
  rw [← hy0] at l0 ⊢
  rw [← hy1] at l1 ⊢
  by_cases hon : prefixes[i] = alpha.take (level + 1)
  · rw [if_pos hon]
    obtain ⟨z0, z1, a0, a1, -, -, hz⟩ := h.raw_on hl hpi hon
    rw [q0, Except.ok.injEq] at a0
    rw [q1, Except.ok.injEq] at a1
    rw [← hz, ← a0, ← a1]
    rw [coef_of_lt (by rw [l0]; exact ht), coef_of_lt (by rw [l1]; exact ht), coef_of_lt (by simp [l0]; simpa [l1] using ht)]
    simp
  · rw [if_neg hon]
    have := h.raw_off hl hpi hon
    rw [q0, q1, Except.ok.injEq] at this
    subst this
    rw [coef_of_lt (by rw [l0]; exact ht), coef_of_lt (by rw [l1]; exact ht)]
    simp [vecNeg]

namespace Poplar1
variable {P : Poplar1} {prims : Prims} {fuel : ℕ}

theorem dst_ok {usage : ℕ} (hu : usage < 2 ^ 16) {ctx : Bytes} (hc : Idpf.CtxOk ctx) :
    ∃ d, dst usage ctx = .ok d ∧ d.length < 2 ^ 16 := by
  refine ⟨_, Prio3.tag_ok_iff.2 ⟨by decide, hu, rfl⟩, ?_⟩
  unfold Idpf.CtxOk at hc
  simp only [Spec.tag, List.length_append, List.length_cons, List.length_nil] at *
  first | omega | (simp [natToLe_length]; omega)

theorem xof_init (seed tag binder : Bytes) (hs : seed.length = 32) (ht : tag.length < 2 ^ 16) :
    ∃ st, (xof prims fuel).init seed tag binder = .ok st := by
  rw [turbo_init, if_pos ht, if_pos (by rw [hs]; decide)]
  exact ⟨_, rfl⟩

theorem nextVec_good {F : Type} [PyField F] (x : (xof prims fuel).State) (n : ℕ) :
    Good (fun e => e = .fuel) ((xof prims fuel).nextVec F fuel x n) fun r => r.1.length = n := by
  rcases nextVec_total (F := F) (xof prims fuel) (fun st k => ⟨_, rfl⟩) fuel n x with ⟨v, st, h⟩ | h
  · rw [h]
    obtain ⟨cs, -, -, -, h, -⟩ := (nextVec_ok _ _ _ _ _).1 h
    exact h
  · rw [h]; exact rfl

/-- The relation between the correlated randomness `off = [a, b, c]`, the authenticator and the two
parties' shares of `(A, B)` -/
def Rel (κ : Kind) (off : List (Fk κ)) (k : Fk κ) (c0 c1 : List (Fk κ)) : Prop :=
  ∃ a b c A0 B0 A1 B1 : Fk κ, off = [a, b, c] ∧ c0 = [A0, B0] ∧ c1 = [A1, B1] ∧
    A0 + A1 = -2 * a + k ∧ B0 + B1 = a ^ 2 + b - a * k + c

theorem list_three {α : Type} {l : List α} (h : l.length = 3) : ∃ a b c, l = [a, b, c] := by
  match l, h with
  | [a, b, c], _ => exact ⟨a, b, c, rfl⟩

theorem list_two {α : Type} {l : List α} (h : l.length = 2) : ∃ a b, l = [a, b] := by
  match l, h with
  | [a, b], _ => exact ⟨a, b, rfl⟩

theorem ofInt_two {F : Type} [PyField F] (h : 2 < PyField.modulus F) : ofInt F 2 = .ok 2 := by
  rw [show (2 : ℤ) = ((2 : ℕ) : ℤ) from rfl, ofInt_nat h]
  rfl

theorem two_lt_modulus (κ : Kind) : 2 < PyField.modulus (Fk κ) := by
  cases κ
  · show 2 < PyField.modulus Field64
    decide +kernel
  · show 2 < PyField.modulus Field255
    decide +kernel

theorem corrLevel_good {κ : Kind} {level : ℕ} (hκ : P.idpf.currentField level = κ)
    {betaInner : List (List Field64)} {betaLeaf : List Field255}
    {x : (xof prims fuel).State} {offsets : List (Σ κ, Fk κ)} {corr : CorrState} {off : List (Fk κ)}
    (hoff : offsets.take 3 = off.map (⟨κ, ·⟩)) (hol : off.length = 3) {one k : Fk κ}
    (hb : Idpf.betaAt betaInner betaLeaf level κ = .ok [one, k]) :
    Good (fun e => e = .fuel) (P.corrLevel prims fuel betaInner betaLeaf (x, offsets, corr) level) fun r =>
      r.2.1 = offsets.drop 3 ∧ ∃ c0 c1, r.2.2 = corr.push κ c0 c1 ∧ Rel κ off k c0 c1 ∧
        (xof prims fuel).nextVec (Fk κ) fuel x 2 = .ok (c1, r.1) := by
  subst hκ
  obtain ⟨a, b, c, rfl⟩ := list_three hol
  unfold corrLevel
  simp only
  rw [hb]
  simp only [Except.ok_bind']
  rw [show getI [one, k] 1 = .ok k from rfl, hoff]
  simp only [Except.ok_bind', List.map_cons, List.map_nil]
  rw [ofInt_two (two_lt_modulus _)]
  simp only [Except.ok_bind', castElem_self]
  refine (nextVec_good x 2).bind ?_
  rintro ⟨v, x'⟩ hx hv
  dsimp only at hv ⊢
  obtain ⟨A1, B1, rfl⟩ := list_two hv
  refine Good.ok ⟨rfl, _, _, rfl, ⟨a, b, c, _, _, _, _, rfl, rfl, rfl, ?_, ?_⟩, hx⟩
  · ring
  · ring


/-- The shares of the correlated randomness of one level, as the Aggregators compute them, fit together. -/
def Corr (P : Poplar1) (prims : Prims) (fuel : ℕ) (ctx nonce : Bytes) (s0 s1 : Poplar1InputShare) (level : ℕ)
    (k : Fk (P.idpf.currentField level)) : Prop :=
  ∃ o0 o1 : List (Fk (P.idpf.currentField level)),
    P.corrShares prims fuel ctx 0 level nonce s0.corrSeed = .ok o0 ∧
    P.corrShares prims fuel ctx 1 level nonce s1.corrSeed = .ok o1 ∧ o0.length = 3 ∧ o1.length = 3 ∧
    Rel _ (List.zipWith (· + ·) o0 o1) k (abShares level s0.corrInner s0.corrLeaf _)
      (abShares level s1.corrInner s1.corrLeaf _)

theorem corrShares_inner {ctx nonce seed tag : Bytes} {aggId level : ℕ} (ha : aggId < 2)
    (hl : level < P.idpf.bits - 1) (hd : dst USAGE_CORR_INNER ctx = .ok tag) {u : List (Fk .inner)}
    (h : (xof prims fuel).expandIntoVec (Fk .inner) seed tag ([UInt8.ofNat aggId] ++ nonce)
      (3 * (P.idpf.bits - 1)) = .ok u) :
    ∃ o, P.corrShares prims fuel ctx aggId level nonce seed = .ok o ∧
      (⟨P.idpf.currentField level, o⟩ : FieldVec) = ⟨.inner, slice u (3 * level) (3 * level + 3)⟩ := by
  unfold Xof.expandIntoVec at h
  rw [Except.bind_eq_ok] at h
  obtain ⟨st, h1, h⟩ := h
  rw [Except.bind_eq_ok] at h
  obtain ⟨⟨u', st'⟩, h2, h⟩ := h
  cases h
  rw [show 3 * (P.idpf.bits - 1) = 3 * level + (3 + 3 * (P.idpf.bits - 2 - level)) by omega] at h2
  obtain ⟨v, w, st1, e1, e2, rfl⟩ := nextVec_split _ _ _ _ _ _ _ h2
  obtain ⟨w1, w2, st2, e3, e4, rfl⟩ := nextVec_split _ _ _ _ _ _ _ e2
  have lv : v.length = 3 * level := (nextVec_good (F := Fk .inner) st (3 * level)).elim e1
  have lw : w1.length = 3 := (nextVec_good (F := Fk .inner) st1 3).elim e3
  have hsl : slice (v ++ (w1 ++ w2)) (3 * level) (3 * level + 3) = w1 := by
    unfold slice
    rw [List.take_append, List.drop_append]
    simp [lv, List.take_append, lw]
  unfold corrShares corrXof
  rw [if_pos hl, hd]
  simp only [Except.ok_bind']
  rw [show byte aggId = .ok [UInt8.ofNat aggId] from Prio3.byte_ok_iff.2 ⟨by omega, rfl⟩]
  simp only [Except.ok_bind']
  rw [h1]
  simp only [Except.ok_bind']
  rw [hsl]
  have hκ := Idpf.currentField_inner hl
  generalize P.idpf.currentField level = κ at hκ ⊢
  subst hκ
  rw [show (xof prims fuel).nextVec (Fk .inner) fuel st (3 * level) = .ok (v, st1) from e1]
  simp only [Except.ok_bind', Except.pure_eq']
  rw [show (xof prims fuel).nextVec (Fk .inner) fuel st1 3 = .ok (w1, st2) from e3]
  exact ⟨_, rfl, rfl⟩

theorem corrShares_leaf {ctx nonce seed tag : Bytes} {aggId level : ℕ} (ha : aggId < 2)
    (hl : ¬ level < P.idpf.bits - 1) (hd : dst USAGE_CORR_LEAF ctx = .ok tag) {u : List (Fk .leaf)}
    (h : (xof prims fuel).expandIntoVec (Fk .leaf) seed tag ([UInt8.ofNat aggId] ++ nonce) 3 = .ok u) :
    ∃ o, P.corrShares prims fuel ctx aggId level nonce seed = .ok o ∧
      (⟨P.idpf.currentField level, o⟩ : FieldVec) = ⟨.leaf, u⟩ := by
  unfold Xof.expandIntoVec at h
  rw [Except.bind_eq_ok] at h
  obtain ⟨st, h1, h⟩ := h
  rw [Except.bind_eq_ok] at h
  obtain ⟨⟨u', st'⟩, h2, h⟩ := h
  cases h
  unfold corrShares corrXof
  rw [if_neg hl, hd]
  simp only [Except.ok_bind']
  rw [show byte aggId = .ok [UInt8.ofNat aggId] from Prio3.byte_ok_iff.2 ⟨by omega, rfl⟩]
  simp only [Except.ok_bind']
  rw [h1]
  simp only [Except.ok_bind']
  have hκ := Idpf.currentField_leaf hl
  generalize P.idpf.currentField level = κ at hκ ⊢
  subst hκ
  rw [show (xof prims fuel).nextVec (Fk .leaf) fuel st 3 = .ok (u, st') from h2]
  exact ⟨_, rfl, rfl⟩

/-- The two parties' expanded correlated randomness, and its sum -/
theorem corrOffsets_good {κ : Kind} {usage : ℕ} (hu : usage < 2 ^ 16) {ctx : Bytes} (hc : Idpf.CtxOk ctx)
    (nonce : Bytes) {seed0 seed1 : Bytes} (h0 : seed0.length = 32) (h1 : seed1.length = 32) (n : ℕ) :
    Good (fun e => e = .fuel) (corrOffsets prims fuel κ usage ctx nonce seed0 seed1 n) fun off =>
      ∃ tag u0 u1, dst usage ctx = .ok tag ∧
        (xof prims fuel).expandIntoVec (Fk κ) seed0 tag ([0] ++ nonce) n = .ok u0 ∧
        (xof prims fuel).expandIntoVec (Fk κ) seed1 tag ([1] ++ nonce) n = .ok u1 ∧
        u0.length = n ∧ u1.length = n ∧ off = List.zipWith (· + ·) u0 u1 := by
  obtain ⟨tag, hd, hdl⟩ := dst_ok hu hc
  have B := turbo_total prims fuel (fuel * PyField.encSize (Fk κ))
  unfold corrOffsets
  rw [hd]
  simp only [Except.ok_bind']
  rw [show byte 0 = .ok [0] from rfl, show byte 1 = .ok [1] from rfl]
  simp only [Except.ok_bind']
  refine (expandIntoVec_good (F := Fk κ) B le_rfl h0 hdl n).bind fun u0 e0 l0 => ?_
  refine (expandIntoVec_good (F := Fk κ) B le_rfl h1 hdl n).bind fun u1 e1 l1 => ?_
  unfold vecAdd
  rw [if_neg (by simp [l0, l1])]
  exact Good.ok ⟨tag, u0, u1, rfl, e0, e1, l0, l1, rfl⟩

theorem slice_zipWith {α : Type} (f : α → α → α) (l m : List α) (a b : ℕ) :
    slice (List.zipWith f l m) a b = List.zipWith f (slice l a b) (slice m a b) := by
  unfold slice
  rw [List.take_zipWith, List.drop_zipWith]

theorem slice_append_left {α : Type} {l m : List α} {a b : ℕ} (h : b ≤ l.length) :
    slice (l ++ m) a b = slice l a b := by
  unfold slice
  rw [List.take_append_of_le_length h]

theorem slice_append_slice {α : Type} {l : List α} {a b c : ℕ} (h : a ≤ b) (h' : b ≤ c) :
    slice l a b ++ slice l b c = slice l a c := by
  unfold slice
  rw [show l.take b = (l.take c).take b by rw [List.take_take, min_eq_left h']]
  generalize l.take c = m
  rw [List.drop_take]
  conv_rhs => rw [← List.take_append_drop (b - a) (m.drop a), List.drop_drop]
  rw [show a + (b - a) = b by omega]

theorem slice_append_right {α : Type} {l m : List α} {a b : ℕ} (ha : a = l.length) (hb : b = a + m.length) :
    slice (l ++ m) a b = m := by
  unfold slice
  rw [List.take_of_length_le (by simp; omega), List.drop_append, ha]
  simp

theorem push_slices {α : Type} {I c : List α} {n : ℕ} (hI : I.length = 2 * n) (hc : c.length = 2) :
    (List.append I c).length = 2 * (n + 1) ∧ slice (List.append I c) (2 * n) (2 * (n + 1)) = c ∧
      ∀ ℓ < n, slice (List.append I c) (2 * ℓ) (2 * (ℓ + 1)) = slice I (2 * ℓ) (2 * (ℓ + 1)) := by
  simp only [List.append_eq]
  exact ⟨by simp; omega, slice_append_right (by omega) (by omega),
    fun ℓ hℓ => slice_append_left (by omega)⟩

/-- The invariant of the loop over the levels -/
structure CorrInv (P : Poplar1) (offInner : List (Fk .inner)) (offLeaf : List (Fk .leaf)) (ks : List (Fk .inner))
    (kLeaf : Fk .leaf) (n : ℕ) (st : List (Σ κ, Fk κ) × CorrState) : Prop where
  offs : st.1 = (offInner.map (fun x => (⟨.inner, x⟩ : Σ κ, Fk κ)) ++ offLeaf.map (fun x => (⟨.leaf, x⟩ : Σ κ, Fk κ))).drop (3 * n)
  len0 : st.2.inner0.length = 2 * min n (P.idpf.bits - 1)
  len1 : st.2.inner1.length = 2 * min n (P.idpf.bits - 1)
  inner : ∀ ℓ < n, ℓ < P.idpf.bits - 1 → Rel .inner (slice offInner (3 * ℓ) (3 * ℓ + 3)) (coef ks ℓ)
    (slice st.2.inner0 (2 * ℓ) (2 * (ℓ + 1))) (slice st.2.inner1 (2 * ℓ) (2 * (ℓ + 1)))
  leaf : n = P.idpf.bits → ∃ l0 l1, st.2.leaf = some (l0, l1) ∧ Rel .leaf offLeaf kLeaf l0 l1

/-- The numbers in the second input share are read one after the other from the stream of `x0`. -/
structure CorrStr (P : Poplar1) (prims : Prims) (fuel : ℕ) (x0 : (xof prims fuel).State) (n : ℕ)
    (st : (xof prims fuel).State × List (Σ κ, Fk κ) × CorrState) : Prop where
  inner : n < P.idpf.bits → ∃ f, (xof prims fuel).nextVec (Fk .inner) f x0 (2 * n) = .ok (st.2.2.inner1, st.1)
  leaf : n = P.idpf.bits → ∃ f x l0 l1,
    (xof prims fuel).nextVec (Fk .inner) f x0 (2 * (P.idpf.bits - 1)) = .ok (st.2.2.inner1, x) ∧
    st.2.2.leaf = some (l0, l1) ∧ (xof prims fuel).nextVec (Fk .leaf) fuel x 2 = .ok (l1, st.1)

theorem nextVec_zero {F : Type} [PyField F] (f : ℕ) (x : (xof prims fuel).State) :
    (xof prims fuel).nextVec F f x 0 = .ok ([], x) := by
  unfold Xof.nextVec
  rw [nextPowerOf2_of_pos (modulus_pos _)]
  cases f <;> rfl

theorem corrLoop_good (hb : 0 < P.idpf.bits) {offInner : List (Fk .inner)} {offLeaf : List (Fk .leaf)}
    (hoi : offInner.length = 3 * (P.idpf.bits - 1)) (hol : offLeaf.length = 3) {ks : List (Fk .inner)}
    (hks : ks.length = P.idpf.bits - 1) (one : Fk .inner) (oneL kLeaf : Fk .leaf) (x : (xof prims fuel).State) :
    Good (fun e => e = .fuel) (forFold (List.range P.idpf.bits)
      (x, offInner.map (fun x => (⟨.inner, x⟩ : Σ κ, Fk κ)) ++ offLeaf.map (fun x => (⟨.leaf, x⟩ : Σ κ, Fk κ)),
        ⟨[], [], none⟩)
      (P.corrLevel prims fuel (ks.map fun k => ([one, k] : List (Fk .inner))) ([oneL, kLeaf] : List (Fk .leaf))))
      fun (r : (xof prims fuel).State × List (Σ κ, Fk κ) × CorrState) =>
      CorrInv P offInner offLeaf ks kLeaf P.idpf.bits r.2 ∧ CorrStr P prims fuel x P.idpf.bits r := by
  refine Good.forFold_range (E := fun e => e = .fuel) P.idpf.bits _ _
    (fun n (r : (xof prims fuel).State × List (Σ κ, Fk κ) × CorrState) => CorrInv P offInner offLeaf ks kLeaf n r.2 ∧
      CorrStr P prims fuel x n r) ?_ ?_
  · exact ⟨⟨rfl, by simp, by simp, fun ℓ h => absurd h (by omega), fun h => absurd h (by omega)⟩,
      ⟨fun _ => ⟨fuel, nextVec_zero fuel x⟩, fun h => absurd h (by omega)⟩⟩
  · rintro n hn ⟨x', offs, corr⟩ ⟨⟨i1, i2, i3, i4, -⟩, i5, -⟩
    obtain ⟨f, i5⟩ := i5 hn
    dsimp only at i1 i2 i3 i4
    by_cases hl : n < P.idpf.bits - 1
    · have hkn : n < ks.length := by omega
      refine (corrLevel_good (κ := .inner) (Idpf.currentField_inner hl) (off := slice offInner (3 * n) (3 * n + 3))
        (one := one) (k := coef ks n) ?_ ?_ ?_).mono ?_
      · rw [i1, List.drop_append_of_le_length (by simp; omega),
          List.take_append_of_le_length (by simp; omega), ← List.map_drop, ← List.map_take]
        unfold slice
        rw [List.drop_take]
        congr 2
        omega
      · rw [slice_length _ _ _ (by omega)]; omega
      · show getI (List.map (fun k => [one, k]) ks) n = _
        rw [getI_of_lt (by simpa using hkn), List.getElem_map, coef_of_lt hkn]
      · rintro ⟨x'', offs', corr'⟩ - ⟨h1, c0, c1, h2, hr, hx⟩
        dsimp only at h1 h2
        subst h1 h2
        have lc0 : c0.length = 2 := by
          obtain ⟨_, _, _, _, _, _, _, -, rfl, -⟩ := hr
          rfl
        have lc1 : c1.length = 2 := by
          obtain ⟨_, _, _, _, _, _, _, -, -, rfl, -⟩ := hr
          rfl
        have hm : min n (P.idpf.bits - 1) = n := by omega
        rw [hm] at i2 i3
        obtain ⟨q1, q2, q3⟩ := push_slices (α := Fk .inner) (I := corr.inner0) (c := c0) i2 lc0
        obtain ⟨r1, r2, r3⟩ := push_slices (α := Fk .inner) (I := corr.inner1) (c := c1) i3 lc1
        have hm' : min (n + 1) (P.idpf.bits - 1) = n + 1 := by omega
        refine ⟨⟨?_, ?_, ?_, ?_, fun h => absurd h (by omega)⟩, ⟨fun _ => ⟨f + fuel, ?_⟩, fun h => absurd h (by omega)⟩⟩
        · dsimp only
          rw [i1, List.drop_drop]
          congr 1
        · rw [hm']; exact q1
        · rw [hm']; exact r1
        · intro ℓ h1 h2
          by_cases hℓ : ℓ < n
          · exact (congrArg₂ (Rel .inner _ _) (q3 ℓ hℓ) (r3 ℓ hℓ)).mpr (i4 ℓ hℓ h2)
          · have : ℓ = n := by omega
            subst this
            exact (congrArg₂ (Rel .inner _ _) q2 r2).mpr hr
        · exact nextVec_append _ _ _ _ _ _ _ _ _ _ i5 hx
    · refine (corrLevel_good (κ := .leaf) (Idpf.currentField_leaf hl) (off := offLeaf)
        (one := oneL) (k := kLeaf) ?_ hol rfl).mono ?_
      · rw [i1, List.drop_append, List.drop_eq_nil_of_le (by simp; omega)]
        simp only [List.length_map, List.nil_append]
        rw [show 3 * n - offInner.length = 0 by omega, List.drop_zero, List.take_of_length_le (by simp [hol])]
      · rintro ⟨x'', offs', corr'⟩ - ⟨h1, c0, c1, h2, hr, hx⟩
        dsimp only at h1 h2
        subst h1 h2
        have hm : min n (P.idpf.bits - 1) = n := by omega
        have hm' : min (n + 1) (P.idpf.bits - 1) = n := by omega
        rw [hm] at i2 i3
        refine ⟨⟨?_, ?_, ?_, ?_, fun _ => ⟨c0, c1, rfl, hr⟩⟩, ⟨fun h => absurd h (by omega), fun _ =>
          ⟨f, x', c0, c1, ?_, rfl, hx⟩⟩⟩
        · dsimp only
          rw [i1, List.drop_drop]
          congr 1
        · rw [hm']; exact i2
        · rw [hm']; exact i3
        · intro ℓ h1 h2
          exact i4 ℓ (by omega) h2
        · rw [show P.idpf.bits - 1 = n by omega]; exact i5


theorem ofInt_one {F : Type} [PyField F] (h : 1 < PyField.modulus F) : ofInt F 1 = .ok 1 := by
  rw [show (1 : ℤ) = ((1 : ℕ) : ℤ) from rfl, ofInt_nat h]
  simp

/-- What an honest client sends -/
structure Honest (P : Poplar1) (prims : Prims) (fuel : ℕ) (ctx nonce : Bytes) (alpha : List Bool)
    (pub : List CorrectionWord) (s0 s1 : Poplar1InputShare)
    (beta : (level : ℕ) → List (Fk (P.idpf.currentField level))) : Prop where
  gen : ∃ N, Idpf.GenRun P.idpf prims fuel alpha beta ctx nonce s0.key s1.key P.idpf.bits pub N
  key0 : s0.key.length = 16
  key1 : s1.key.length = 16
  one : ∀ level < P.idpf.bits, coef (beta level) 0 = 1
  corr : ∀ level < P.idpf.bits, Corr P prims fuel ctx nonce s0 s1 level (coef (beta level) 1)

theorem rel_transport {κ κ' : Kind} (h : κ = κ') {o0 o1 : List (Fk κ)} {u0 u1 : List (Fk κ')} {k : Fk κ}
    {k' : Fk κ'} {c0 c1 : List (Fk κ)} {c0' c1' : List (Fk κ')}
    (e0 : (⟨κ, o0⟩ : FieldVec) = ⟨κ', u0⟩) (e1 : (⟨κ, o1⟩ : FieldVec) = ⟨κ', u1⟩)
    (e2 : HEq k k') (e3 : HEq c0 c0') (e4 : HEq c1 c1')
    (hr : Rel κ' (List.zipWith (· + ·) u0 u1) k' c0' c1') :
    Rel κ (List.zipWith (· + ·) o0 o1) k c0 c1 := by
  subst h
  cases e0; cases e1; cases e2; cases e3; cases e4
  exact hr

/-- How `shard` uses its randomness -/
structure Layout (P : Poplar1) (prims : Prims) (fuel : ℕ) (ctx nonce rand : Bytes) (alpha : List Bool)
    (pub : List CorrectionWord) (key0 key1 seed0 seed1 seed2 tag tagI tagL : Bytes)
    (ks inner0 inner1 : List Field64) (kLeaf : Field255) (leaf0 leaf1 : List Field255)
    (u0 u1 : List (Fk .inner)) (w0 w1 : List (Fk .leaf)) : Prop where
  rand : rand = key0 ++ key1 ++ seed0 ++ seed1 ++ seed2
  lkey0 : key0.length = 16
  lkey1 : key1.length = 16
  lseed0 : seed0.length = 32
  lseed1 : seed1.length = 32
  lseed2 : seed2.length = 32
  dst : dst USAGE_SHARD_RAND ctx = .ok tag
  dstI : Poplar1.dst USAGE_CORR_INNER ctx = .ok tagI
  dstL : Poplar1.dst USAGE_CORR_LEAF ctx = .ok tagL
  gen : P.idpf.gen prims fuel alpha (ks.map fun k => ([1, k] : List Field64)) ([1, kLeaf] : List Field255) ctx nonce
    (key0 ++ key1) = .ok (pub, [key0, key1])
  run : ∃ N, Idpf.GenRun P.idpf prims fuel alpha (fun ℓ => Idpf.betaFun (ks.map fun k => ([1, k] : List Field64))
    ([1, kLeaf] : List Field255) ℓ (P.idpf.currentField ℓ)) ctx nonce key0 key1 P.idpf.bits pub N
  lks : ks.length = P.idpf.bits - 1
  stream : ∃ x x1 x2 x3 x4 f, (xof prims fuel).init seed2 tag nonce = .ok x ∧
    (xof prims fuel).nextVec (Fk .inner) fuel x (P.idpf.bits - 1) = .ok (ks, x1) ∧
    (xof prims fuel).nextVec (Fk .leaf) fuel x1 1 = .ok ([kLeaf], x2) ∧
    (xof prims fuel).nextVec (Fk .inner) f x2 (2 * (P.idpf.bits - 1)) = .ok (inner1, x3) ∧
    (xof prims fuel).nextVec (Fk .leaf) fuel x3 2 = .ok (leaf1, x4)
  ex0 : (xof prims fuel).expandIntoVec (Fk .inner) seed0 tagI ([0] ++ nonce) (3 * (P.idpf.bits - 1)) = .ok u0
  ex1 : (xof prims fuel).expandIntoVec (Fk .inner) seed1 tagI ([1] ++ nonce) (3 * (P.idpf.bits - 1)) = .ok u1
  ey0 : (xof prims fuel).expandIntoVec (Fk .leaf) seed0 tagL ([0] ++ nonce) 3 = .ok w0
  ey1 : (xof prims fuel).expandIntoVec (Fk .leaf) seed1 tagL ([1] ++ nonce) 3 = .ok w1
  lu0 : u0.length = 3 * (P.idpf.bits - 1)
  lu1 : u1.length = 3 * (P.idpf.bits - 1)
  lw0 : w0.length = 3
  lw1 : w1.length = 3
  inner : ∀ ℓ < P.idpf.bits - 1, Rel .inner (slice (List.zipWith (· + ·) u0 u1) (3 * ℓ) (3 * ℓ + 3)) (coef ks ℓ)
    (slice inner0 (2 * ℓ) (2 * (ℓ + 1))) (slice inner1 (2 * ℓ) (2 * (ℓ + 1)))
  leaf : Rel .leaf (List.zipWith (· + ·) w0 w1) kLeaf leaf0 leaf1
  linner0 : inner0.length = 2 * (P.idpf.bits - 1)
  linner1 : inner1.length = 2 * (P.idpf.bits - 1)

theorem shard_layout (hf : fuel < 2 ^ 120) (hb : 0 < P.idpf.bits) (hv : P.idpf.valueLen = 2) {ctx : Bytes}
    (hc : Idpf.CtxOk ctx) {alpha : List Bool} (ha : alpha.length = P.idpf.bits) {nonce rand : Bytes}
    (hn : nonce.length = 16) (hr : rand.length = 128) :
    Good (fun e => e = .fuel) (P.shard prims fuel ctx alpha nonce rand) fun r =>
      ∃ key0 key1 seed0 seed1 seed2 tag tagI tagL ks inner0 inner1 kLeaf leaf0 leaf1 u0 u1 w0 w1,
        r.2 = [⟨key0, seed0, inner0, leaf0⟩, ⟨key1, seed1, inner1, leaf1⟩] ∧
        Layout P prims fuel ctx nonce rand alpha r.1 key0 key1 seed0 seed1 seed2 tag tagI tagL ks inner0 inner1
          kLeaf leaf0 leaf1 u0 u1 w0 w1 := by
  have hrs : rand.length = randSize prims fuel := hr
  unfold shard
  rw [raiseIf_of_not (show ¬ nonce.length ≠ NONCE_SIZE from fun h => h hn)]
  simp only [Except.ok_bind']
  rw [raiseIf_of_not (show ¬ rand.length ≠ randSize prims fuel from fun h => h hrs)]
  simp only [Except.ok_bind']
  rw [raiseIf_of_not (show ¬ rand.length ≠ randSize prims fuel from fun h => h hrs)]
  simp only [Except.ok_bind']
  rw [front_of_le (show Idpf.RAND_SIZE ≤ rand.length by rw [hr]; decide)]
  simp only [Except.ok_bind']
  set rest := rand.drop Idpf.RAND_SIZE with hrest
  have lrest : rest.length = 96 := by rw [hrest, List.length_drop, hr]; rfl
  have hch : chunks rest 3 (xof prims fuel).seedSize =
      [slice rest 0 32, slice rest 32 64, slice rest 64 96] := rfl
  rw [hch]
  have l0 : (slice rest 0 32).length = 32 := slice_length _ _ _ (by omega)
  have l1 : (slice rest 32 64).length = 32 := slice_length _ _ _ (by omega)
  have l2 : (slice rest 64 96).length = 32 := slice_length _ _ _ (by omega)
  have hsl : rest = slice rest 0 32 ++ slice rest 32 64 ++ slice rest 64 96 := by
    rw [slice_append_slice (by omega) (by omega), slice_append_slice (by omega) (by omega)]
    unfold slice
    rw [List.take_of_length_le (by omega), List.drop_zero]
  generalize slice rest 0 32 = seed0 at l0 hsl ⊢
  generalize slice rest 32 64 = seed1 at l1 hsl ⊢
  generalize slice rest 64 96 = seed2 at l2 hsl ⊢
  rw [show front 2 [seed0, seed1, seed2] = .ok ([seed0, seed1], [seed2]) from rfl]
  simp only [Except.ok_bind']
  rw [show getI [seed0, seed1] 0 = .ok seed0 from rfl, show getI [seed0, seed1] 1 = .ok seed1 from rfl,
    show front 1 [seed2] = .ok ([seed2], []) from rfl]
  simp only [Except.ok_bind']
  rw [show getI [seed2] 0 = .ok seed2 from rfl]
  simp only [Except.ok_bind']
  obtain ⟨tag, hd, hdl⟩ := dst_ok (show USAGE_SHARD_RAND < 2 ^ 16 by decide) hc
  rw [hd]
  simp only [Except.ok_bind']
  obtain ⟨x, hx⟩ := xof_init (prims := prims) (fuel := fuel) seed2 tag nonce l2 hdl
  rw [hx]
  simp only [Except.ok_bind']
  refine (nextVec_good (F := Field64) x (P.idpf.bits - 1)).bind ?_
  rintro ⟨ks, x1⟩ hx1 lks
  dsimp only at lks ⊢
  rw [ofInt_one (by decide +kernel)]
  simp only [Except.ok_bind']
  rw [ofInt_one (by decide +kernel)]
  simp only [Except.ok_bind']
  refine (nextVec_good (F := Field255) x1 1).bind ?_
  rintro ⟨kl, x2⟩ hx2 lkl
  dsimp only at lkl ⊢
  obtain ⟨kLeaf, rfl⟩ := List.length_eq_one_iff.1 lkl
  set betaInner : List (List Field64) := ks.map fun k => [1, k] with hbi
  set betaLeaf : List Field255 := [1] ++ [kLeaf] with hbl
  have lbi : betaInner.length = P.idpf.bits - 1 := by simp [hbi, lks]
  have lbi' : ∀ x ∈ betaInner, x.length = P.idpf.valueLen := by
    intro x hx
    rw [hbi, List.mem_map] at hx
    obtain ⟨k, -, rfl⟩ := hx
    exact hv.symm
  have lbl : betaLeaf.length = P.idpf.valueLen := hv.symm
  refine (Idpf.gen_good (I := P.idpf) (prims := prims) hf hc ha lbi lbi' lbl
    (rand := rand.take Idpf.RAND_SIZE) (by simp [hr, Idpf.RAND_SIZE, Idpf.KEY_SIZE]) hn).bind ?_
  rintro ⟨pub, keys⟩ hgen ⟨hk, N, hN⟩
  dsimp only at hk hN ⊢
  subst hk
  refine (corrOffsets_good (κ := .inner) (usage := USAGE_CORR_INNER) (by decide) hc nonce l0 l1 _).bind ?_
  rintro offInner - ⟨tagI, u0, u1, hdI, x0, x1', lu0, lu1, hoi⟩
  refine (corrOffsets_good (κ := .leaf) (usage := USAGE_CORR_LEAF) (by decide) hc nonce l0 l1 _).bind ?_
  rintro offLeaf - ⟨tagL, w0, w1, hdL, y0, y1, lw0, lw1, hol⟩
  refine (corrLoop_good (prims := prims) (fuel := fuel) hb (offInner := offInner) (offLeaf := offLeaf)
    (by rw [hoi]; simp [lu0, lu1]) (by rw [hol]; simp [lw0, lw1]) (ks := ks) lks 1 1 kLeaf x2).bind ?_
  rintro ⟨x', offs', corr⟩ - ⟨hinv, hstr⟩
  dsimp only at hinv ⊢
  obtain ⟨f, x3, l0', l1', g1, g2, g3⟩ := hstr.leaf rfl
  obtain ⟨c0, c1, hcl, hrel⟩ := hinv.leaf rfl
  dsimp only at hcl
  rw [hcl]
  dsimp only at g1 g2 g3
  rw [hcl] at g2
  cases g2
  have hkeys : List.take 16 (List.take Idpf.RAND_SIZE rand) ++ List.drop 16 (List.take Idpf.RAND_SIZE rand) =
      List.take Idpf.RAND_SIZE rand := List.take_append_drop _ _
  refine Good.ok ⟨_, _, seed0, seed1, seed2, tag, tagI, tagL, ks, corr.inner0, corr.inner1, kLeaf, l0', l1', u0, u1,
    w0, w1, rfl, ?_⟩
  refine ⟨?_, ?_, ?_, l0, l1, l2, hd, hdI, hdL, ?_, ⟨N, hN⟩, lks, ⟨x, x1, x2, x3, x', f, hx, hx1, hx2, g1, g3⟩, x0, x1',
    y0, y1, lu0, lu1, lw0, lw1, ?_, ?_, ?_, ?_⟩
  · rw [hkeys, List.append_assoc, List.append_assoc, ← List.append_assoc seed0, ← hsl, hrest, List.take_append_drop]
  · simp [hr, Idpf.RAND_SIZE]
  · simp [hr, Idpf.RAND_SIZE]
  · rw [hkeys]; exact hgen
  · intro ℓ hℓ
    rw [← hoi]
    exact hinv.inner ℓ (by omega) hℓ
  · rw [← hol]; exact hrel
  · rw [hinv.len0, Nat.min_eq_right (by omega)]
  · rw [hinv.len1, Nat.min_eq_right (by omega)]

theorem shard_good (hf : fuel < 2 ^ 120) (hb : 0 < P.idpf.bits) (hv : P.idpf.valueLen = 2) {ctx : Bytes}
    (hc : Idpf.CtxOk ctx) {alpha : List Bool} (ha : alpha.length = P.idpf.bits) {nonce rand : Bytes}
    (hn : nonce.length = 16) (hr : rand.length = 128) :
    Good (fun e => e = .fuel) (P.shard prims fuel ctx alpha nonce rand) fun r =>
      ∃ s0 s1 beta, r.2 = [s0, s1] ∧ Honest P prims fuel ctx nonce alpha r.1 s0 s1 beta := by
  refine (shard_layout hf hb hv hc ha hn hr).mono ?_
  rintro ⟨pub, ish⟩ - ⟨key0, key1, seed0, seed1, seed2, tag, tagI, tagL, ks, inner0, inner1, kLeaf, leaf0, leaf1, u0,
    u1, w0, w1, hish, L⟩
  dsimp only at hish L
  obtain ⟨N, hN⟩ := L.run
  have lks := L.lks
  have lu0 := L.lu0
  have lu1 := L.lu1
  set betaInner : List (List Field64) := ks.map fun k => [1, k] with hbi
  have lbi : betaInner.length = P.idpf.bits - 1 := by simp [hbi, lks]
  refine ⟨_, _, fun ℓ => Idpf.betaFun betaInner [1, kLeaf] ℓ (P.idpf.currentField ℓ), hish,
    ⟨⟨N, hN⟩, L.lkey0, L.lkey1, ?_, ?_⟩⟩
  · intro ℓ hℓ
    by_cases hl : ℓ < P.idpf.bits - 1
    · rw [Idpf.currentField_inner hl]
      show coef (betaInner.getD ℓ []) 0 = 1
      rw [List.getD_eq_getElem?_getD, List.getElem?_eq_getElem (by omega)]
      simp [hbi, coef]
    · rw [Idpf.currentField_leaf hl]
      rfl
  · intro ℓ hℓ
    by_cases hl : ℓ < P.idpf.bits - 1
    · obtain ⟨o0, p0, q0⟩ := corrShares_inner (prims := prims) (fuel := fuel) (aggId := 0) (by decide) hl L.dstI L.ex0
      obtain ⟨o1, p1, q1⟩ := corrShares_inner (prims := prims) (fuel := fuel) (aggId := 1) (by decide) hl L.dstI L.ex1
      have hrel := L.inner ℓ hl
      refine ⟨o0, o1, p0, p1, ?_, ?_, ?_⟩
      · have := congrArg (fun v : FieldVec => v.2.length) q0
        dsimp only at this
        rw [this, slice_length _ _ _ (by omega)]
        omega
      · have := congrArg (fun v : FieldVec => v.2.length) q1
        dsimp only at this
        rw [this, slice_length _ _ _ (by omega)]
        omega
      · refine rel_transport (Idpf.currentField_inner hl) q0 q1 (k' := coef ks ℓ) ?_ ?_ ?_
          (by rw [← slice_zipWith]; exact hrel)
        · rw [Idpf.currentField_inner hl]
          apply heq_of_eq
          show coef (betaInner.getD ℓ []) 1 = _
          have : ℓ < ks.length := by omega
          rw [List.getD_eq_getElem?_getD, List.getElem?_eq_getElem (by omega)]
          simp only [hbi, List.getElem_map]
          exact (coef_of_lt this).symm
        · rw [Idpf.currentField_inner hl]
          exact HEq.rfl
        · rw [Idpf.currentField_inner hl]
          exact HEq.rfl
    · obtain ⟨o0, p0, q0⟩ := corrShares_leaf (prims := prims) (fuel := fuel) (aggId := 0) (by decide) hl L.dstL L.ey0
      obtain ⟨o1, p1, q1⟩ := corrShares_leaf (prims := prims) (fuel := fuel) (aggId := 1) (by decide) hl L.dstL L.ey1
      refine ⟨o0, o1, p0, p1, ?_, ?_, ?_⟩
      · exact (congrArg (fun v : FieldVec => v.2.length) q0).trans L.lw0
      · exact (congrArg (fun v : FieldVec => v.2.length) q1).trans L.lw1
      · refine rel_transport (Idpf.currentField_leaf hl) q0 q1 (k' := kLeaf) ?_ ?_ ?_
          L.leaf
        · rw [Idpf.currentField_leaf hl]
          exact HEq.rfl
        · rw [Idpf.currentField_leaf hl]
          exact HEq.rfl
        · rw [Idpf.currentField_leaf hl]
          exact HEq.rfl

end Poplar1
end Vdaf
