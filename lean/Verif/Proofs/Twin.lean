import Verif.Proofs.Poplar1Run
import Verif.Props.Reject

/-! # Poplar1: a report whose two IDPF keys are equal -/

namespace Vdaf
open Finset

namespace Idpf
variable {I : Idpf} {prims : Prims} {fuel : ℕ} {ctx nonce : Bytes}

/-- A correction word that leaves the seeds alone and flips both control bits -/
def flip (w : FieldVec) : CorrectionWord := ⟨List.replicate 16 0, (true, true), w⟩

theorem xor_zeros : ∀ {n : ℕ} {s : Bytes}, s.length = n → xor s (List.replicate n 0) = s := by
  intro n s h
  subst h
  unfold xor
  induction s with
  | nil => rfl
  | cons b s ih => simp [List.replicate_succ, ih]

/-- The child of a node without the correction of the value -/
def bare (I : Idpf) (prims : Prims) (fuel : ℕ) (ctx nonce : Bytes) (s : Bytes) (level : ℕ) (bit : Bool) :
    Res (Bytes × Bool × List (Fk (I.currentField level))) := do
  let (e, t) ← I.extend prims fuel level s ctx nonce
  let (ns, y) ← I.convert prims fuel level (pick e bit) ctx nonce
  return (ns, pick t bit, y)

theorem bare_good (hf : fuel < 2 ^ 120) (hc : CtxOk ctx) {s : Bytes} (hs : s.length = 16) (level : ℕ) (bit : Bool) :
    Good (fun e => e = .fuel) (bare I prims fuel ctx nonce s level bit)
      fun r => r.1.length = 16 ∧ r.2.2.length = I.valueLen := by
  unfold bare
  obtain ⟨e, t, h1, h2, h3⟩ := I.extend_ok prims fuel level nonce hs hc
  rw [h1]
  simp only [Except.ok_bind']
  refine (I.convert_good prims fuel hf level nonce (pick_length h2 h3 bit) hc).bind ?_
  rintro ⟨ns, y⟩ - ⟨h4, h5⟩
  exact Good.ok ⟨h4, h5⟩

theorem evalNext_flip (hf : fuel < 2 ^ 120) (hc : CtxOk ctx) {s : Bytes} (hs : s.length = 16) (c : Bool) (level : ℕ)
    (bit : Bool) (w : List (Fk (I.currentField level))) (hw : w.length = I.valueLen) :
    I.evalNext prims fuel s c (flip ⟨_, w⟩) level bit ctx nonce =
      (bare I prims fuel ctx nonce s level bit >>= fun r =>
        .ok (r.1, Bool.xor r.2.1 c, if Bool.xor r.2.1 c then List.zipWith (· + ·) r.2.2 w else r.2.2)) := by
  rw [evalNext_eq]
  unfold bare
  obtain ⟨e, t, h1, h2, h3⟩ := I.extend_ok prims fuel level nonce hs hc
  rw [h1]
  simp only [Except.ok_bind', finish]
  have hch : child e t c bit (flip ⟨_, w⟩) = (pick e bit, Bool.xor (pick t bit) c) := by
    unfold child genKeep flip
    dsimp only
    cases c
    · simp
    · rw [if_pos rfl, xor_zeros (pick_length h2 h3 bit)]
      cases bit <;> rfl
  rw [hch]
  dsimp only
  rcases (I.convert_good prims fuel hf level nonce (pick_length h2 h3 bit) hc).cases with ⟨⟨ns, y⟩, e1, h4, h5⟩ | ⟨x, e1, -⟩
  · rw [e1]
    dsimp only at h5
    simp only [Except.ok_bind', Except.pure_eq']
    split
    · rw [show (flip ⟨I.currentField level, w⟩).wCw = ⟨_, w⟩ from rfl, castVec_self]
      rw [addLoop y _ (by omega)]
      rfl
    · rfl
  · rw [e1]
    rfl

/-- The state of the first Aggregator before level `ℓ`, if the correction words are `flip` -/
def core (I : Idpf) (prims : Prims) (fuel : ℕ) (ctx nonce key : Bytes) (p : List Bool) (ℓ : ℕ) : Res (Bytes × Bool) :=
  forFold (List.range ℓ) (key, false) fun st i => do
    let bit ← getI p i
    let r ← bare I prims fuel ctx nonce st.1 i bit
    return (r.1, Bool.xor r.2.1 st.2)

theorem core_succ (key : Bytes) (p : List Bool) (ℓ : ℕ) : core I prims fuel ctx nonce key p (ℓ + 1) =
    (core I prims fuel ctx nonce key p ℓ >>= fun st => do
      let bit ← getI p ℓ
      let r ← bare I prims fuel ctx nonce st.1 ℓ bit
      return (r.1, Bool.xor r.2.1 st.2)) := by
  unfold core
  rw [List.range_succ, forFold_append]
  congr 1
  funext st
  rw [forFold_cons]
  generalize (do
      let bit ← getI p ℓ
      let r ← bare I prims fuel ctx nonce st.1 ℓ bit
      return (r.1, Bool.xor r.2.1 st.2) : Res (Bytes × Bool)) = x
  cases x <;> rfl

/-- The control bit and the uncorrected value of the first Aggregator at a prefix -/
def root (I : Idpf) (prims : Prims) (fuel : ℕ) (ctx nonce key : Bytes) (p : List Bool) (level : ℕ) :
    Res (Bool × List (Fk (I.currentField level))) := do
  let st ← core I prims fuel ctx nonce key p level
  let bit ← getI p level
  let r ← bare I prims fuel ctx nonce st.1 level bit
  return (Bool.xor r.2.1 st.2, r.2.2)

/-- The public share with the correction values `w` -/
def flips (I : Idpf) (w : (ℓ : ℕ) → List (Fk (I.currentField ℓ))) : List CorrectionWord :=
  (List.range I.bits).map fun ℓ => flip ⟨_, w ℓ⟩

theorem flips_get {w : (ℓ : ℕ) → List (Fk (I.currentField ℓ))} {ℓ : ℕ} (h : ℓ < I.bits) :
    getI (flips I w) ℓ = .ok (flip ⟨_, w ℓ⟩) :=
  getI_of_some (by simp only [flips, List.getElem?_map, List.getElem?_range h, Option.map_some])

theorem core_good (hf : fuel < 2 ^ 120) (hc : CtxOk ctx) {key : Bytes} (hk : key.length = 16) {p : List Bool} {ℓ : ℕ}
    (hp : ℓ ≤ p.length) : Good (fun e => e = .fuel) (core I prims fuel ctx nonce key p ℓ) fun st => st.1.length = 16 := by
  induction ℓ with
  | zero => exact Good.ok hk
  | succ ℓ ih =>
    rw [core_succ]
    refine (ih (by omega)).bind fun st _ hst => ?_
    rw [getI_of_lt (show ℓ < p.length by omega)]
    simp only [Except.ok_bind']
    exact (bare_good hf hc hst ℓ _).bind fun r _ hr => Good.ok hr.1

theorem root_good (hf : fuel < 2 ^ 120) (hc : CtxOk ctx) {key : Bytes} (hk : key.length = 16) {p : List Bool} {level : ℕ}
    (hp : level < p.length) : Good (fun e => e = .fuel) (root I prims fuel ctx nonce key p level)
      fun r => r.2.length = I.valueLen := by
  unfold root
  refine (core_good hf hc hk hp.le).bind fun st _ hst => ?_
  rw [getI_of_lt hp]
  simp only [Except.ok_bind']
  exact (bare_good hf hc hst level _).bind fun r _ hr => Good.ok hr.2

theorem walk_flips (hf : fuel < 2 ^ 120) (hc : CtxOk ctx) {key : Bytes} (hk : key.length = 16) {p : List Bool}
    {w : (ℓ : ℕ) → List (Fk (I.currentField ℓ))} (hw : ∀ ℓ, (w ℓ).length = I.valueLen) (aggId : ℕ) {ℓ : ℕ}
    (hp : ℓ ≤ p.length) (hl : ℓ ≤ I.bits) : I.walk prims fuel aggId (flips I w) key p ctx nonce ℓ =
      (core I prims fuel ctx nonce key p ℓ >>= fun st => .ok (st.1, Bool.xor st.2 (decide (aggId ≠ 0)))) := by
  induction ℓ with
  | zero => simp [walk, core, forFold_nil, Except.ok_bind']
  | succ ℓ ih =>
    rw [walk_succ, core_succ, ih (by omega) (by omega)]
    rcases (core_good (I := I) (prims := prims) (nonce := nonce) hf hc hk (show ℓ ≤ p.length by omega)).cases with
      ⟨st, e, h⟩ | ⟨x, e, -⟩
    · rw [e]
      simp only [Except.ok_bind', evalStep]
      rw [getI_of_lt (show ℓ < p.length by omega), flips_get (by omega)]
      simp only [Except.ok_bind']
      rw [evalNext_flip hf hc h _ _ _ _ (hw ℓ)]
      cases bare I prims fuel ctx nonce st.1 ℓ p[ℓ] with
      | error x => rfl
      | ok r => simp only [Except.ok_bind', Except.pure_eq', Bool.xor_assoc]
    · rw [e]
      rfl

theorem evalRaw_flips (hf : fuel < 2 ^ 120) (hc : CtxOk ctx) {key : Bytes} (hk : key.length = 16) {p : List Bool}
    {w : (ℓ : ℕ) → List (Fk (I.currentField ℓ))} (hw : ∀ ℓ, (w ℓ).length = I.valueLen) (aggId : ℕ) {level : ℕ}
    (hp : level < p.length) (hl : level < I.bits) : I.evalRaw prims fuel aggId (flips I w) key level ctx nonce p =
      (root I prims fuel ctx nonce key p level >>= fun r =>
        .ok (if Bool.xor r.1 (decide (aggId ≠ 0)) then List.zipWith (· + ·) r.2 (w level) else r.2)) := by
  unfold evalRaw root
  rw [walk_flips hf hc hk hw aggId hp.le hl.le]
  rcases (core_good (I := I) (prims := prims) (nonce := nonce) hf hc hk hp.le).cases with ⟨st, e, h⟩ | ⟨x, e, -⟩
  · rw [e]
    simp only [Except.ok_bind']
    rw [getI_of_lt hp, flips_get hl]
    simp only [Except.ok_bind']
    rw [evalNext_flip hf hc h _ _ _ _ (hw level)]
    cases bare I prims fuel ctx nonce st.1 level p[level] with
    | error x => rfl
    | ok r => simp only [Except.ok_bind', Except.pure_eq', Bool.xor_assoc]
  · rw [e]
    rfl

end Idpf

namespace Poplar1
variable {P : Poplar1} {prims : Prims} {fuel : ℕ} {ctx nonce : Bytes}

/-- The correction values: the value programmed by an honest Client, or its negation -/
def twinValue (beta : (level : ℕ) → List (Fk (P.idpf.currentField level))) (sgn : ℕ → Bool) (ℓ : ℕ) :
    List (Fk (P.idpf.currentField ℓ)) :=
  if sgn ℓ then [1, coef (beta ℓ) 1] else [-1, -coef (beta ℓ) 1]

theorem twinValue_length (beta : (level : ℕ) → List (Fk (P.idpf.currentField level))) (sgn : ℕ → Bool) (ℓ : ℕ) :
    (twinValue beta sgn ℓ).length = 2 := by
  unfold twinValue
  split <;> rfl

theorem eval_single (hf : fuel < 2 ^ 120) (hc : Idpf.CtxOk ctx) (hv : P.idpf.valueLen = 2) {key : Bytes} (hk : key.length = 16)
    {w : (ℓ : ℕ) → List (Fk (P.idpf.currentField ℓ))} (hw : ∀ ℓ, (w ℓ).length = 2) {level : ℕ} (hl : level < P.idpf.bits)
    {p : List Bool} (hp : p.length = level + 1) {aggId : ℕ} (ha : aggId < 2) :
    P.idpf.eval prims fuel aggId (Idpf.flips P.idpf w) key level [p] ctx nonce =
      (Idpf.root P.idpf prims fuel ctx nonce key p level >>= fun r => .ok
        [if aggId = 0 then (if r.1 then List.zipWith (· + ·) r.2 (w level) else r.2)
          else vecNeg (if r.1 then r.2 else List.zipWith (· + ·) r.2 (w level))]) := by
  rw [Idpf.eval_eq _ _ _ ha _ _ hl (List.nodup_singleton p), mapRes_cons, Idpf.evalPrefix_eq _ _ _ _ _ _ _ _ _ hp,
    Idpf.evalRaw_flips hf hc hk (fun ℓ => (hw ℓ).trans hv.symm) aggId (by omega) hl]
  cases Idpf.root P.idpf prims fuel ctx nonce key p level with
  | error e => rfl
  | ok r =>
    simp only [Except.ok_bind', mapRes_nil]
    obtain rfl | rfl : aggId = 0 ∨ aggId = 1 := by omega
    · simp
    · cases r.1 <;> simp

theorem twin_verify (hf : fuel < 2 ^ 120) (hc : Idpf.CtxOk ctx) (hv : P.idpf.valueLen = 2) {alpha : List Bool}
    {pub : List CorrectionWord} {s0 s1 : Poplar1InputShare} {beta : (level : ℕ) → List (Fk (P.idpf.currentField level))}
    (H : Honest P prims fuel ctx nonce alpha pub s0 s1 beta) {key : Bytes} (hk : key.length = 16) (sgn : ℕ → Bool)
    {level : ℕ} (hl : level < P.idpf.bits) (hl16 : level < 2 ^ 16) {p : List Bool} (hp : p.length = level + 1)
    (hs : ∀ r, Idpf.root P.idpf prims fuel ctx nonce key p level = .ok r → r.1 = sgn level) {vk : Bytes}
    (hvk : vk.length = 32) :
    Spec.poplar1Verify P prims fuel vk ctx (level, [p]) nonce (Idpf.flips P.idpf (twinValue beta sgn)) { s0 with key := key }
        { s1 with key := key } = .error .fuel ∨
      ∃ u0 u1 : Fk (P.idpf.currentField level), Spec.poplar1Verify P prims fuel vk ctx (level, [p]) nonce
        (Idpf.flips P.idpf (twinValue beta sgn)) { s0 with key := key } { s1 with key := key } =
          .ok (⟨_, [u0]⟩, ⟨_, [u1]⟩) ∧ u0 + u1 = 1 := by
  obtain ⟨o0, o1, q0, q1, lo0, lo1, a, b, c, A0, B0, A1, B1, hoff, hab0, hab1, hA, hB⟩ := H.corr level hl
  obtain ⟨a0, b0, c0, rfl⟩ := list_three lo0
  obtain ⟨a1, b1, c1, rfl⟩ := list_three lo1
  simp only [List.zipWith_cons_cons, List.zipWith_nil_left, List.cons.injEq, and_true] at hoff
  obtain ⟨rfl, rfl, rfl⟩ := hoff
  have hvr := verifyRand_good (P := P) (prims := prims) (fuel := fuel) (nonce := nonce) hvk hc hl16 1
  have ev := fun (j : ℕ) (hj : j < 2) => eval_single (P := P) (prims := prims) (nonce := nonce) hf hc hv hk
    (twinValue_length beta sgn) hl hp hj
  have hg := Idpf.root_good (I := P.idpf) (prims := prims) (nonce := nonce) hf hc hk (show level < p.length by omega)
  have eg : ∀ j : ℕ, j < 2 → Good (fun e => e = .fuel)
      (P.idpf.eval prims fuel j (Idpf.flips P.idpf (twinValue beta sgn)) key level [p] ctx nonce)
      fun out => out.length = 1 ∧ ∀ y ∈ out, y.length = 2 := by
    intro j hj
    rw [ev j hj]
    refine hg.bind fun r _ hr => Good.ok ⟨rfl, ?_⟩
    intro y hy
    rw [List.mem_singleton.1 hy]
    have := twinValue_length beta sgn level
    split <;> split <;> simp [vecNeg, hr, hv, this]
  have i0 := verifyInit_good (P := P) (prims := prims) (fuel := fuel) (j := 0) (s := { s0 with key := key }) (by decide)
    (eg 0 (by decide)) (corr := (a0, b0, c0)) q0 hab0 hvr
  have i1 := verifyInit_good (P := P) (prims := prims) (fuel := fuel) (j := 1) (s := { s1 with key := key }) (by decide)
    (eg 1 (by decide)) (corr := (a1, b1, c1)) q1 hab1 hvr
  rcases i0.cases with ⟨r0, h0, v0, r, R0, l0, lr, rfl⟩ | ⟨e, h0, rfl⟩
  swap
  · left
    unfold Spec.poplar1Verify
    rw [h0]
    rfl
  rcases i1.cases with ⟨r1, h1, v1, r', R1, l1, lr', rfl⟩ | ⟨e, h1, rfl⟩
  swap
  · left
    unfold Spec.poplar1Verify
    rw [h0, h1]
    rfl
  obtain rfl : r = r' := by simpa using R0.rand.symm.trans R1.rand
  right
  obtain ⟨x, rfl⟩ := List.length_eq_one_iff.1 lr
  rcases hg.cases with ⟨⟨bit, y⟩, hr, hy⟩ | ⟨e, hr, -⟩
  swap
  · have := R0.eval
    rw [ev 0 (by decide), hr] at this
    cases this
  have hbit := hs _ hr
  dsimp only at hbit hy
  subst hbit
  obtain ⟨y0, y1, rfl⟩ : ∃ y0 y1, y = [y0, y1] := by
    rw [hv] at hy
    exact List.length_eq_two.1 hy
  have e0 := R0.eval
  have e1 := R1.eval
  rw [ev 0 (by decide), hr] at e0
  rw [ev 1 (by decide), hr] at e1
  simp only [Except.ok_bind', Except.ok.injEq] at e0 e1
  have htot : ∀ t < 2, tot v0 v1 0 t = if t = 0 then 1 else coef (beta level) 1 := by
    intro t ht
    unfold tot ent
    rw [← e0, ← e1]
    unfold twinValue
    obtain rfl | rfl : t = 0 ∨ t = 1 := by omega
    · cases sgn level <;> simp [vecNeg, coef]
    · cases sgn level <;> simp [vecNeg, coef]
  have hsig : sigma 1 (fun i => tot v0 v1 i 0) (fun i => tot v0 v1 i 1) (fun i => coef [x] i)
        (a0 + a1) (b0 + b1) (c0 + c1) (A0 + A1) (B0 + B1) = 0 := by
    refine sigma_honest (k := coef (beta level) 1) (.inr ⟨0, by decide, ?_⟩) ?_ hA hB
    · intro i hi
      obtain rfl : i = 0 := by omega
      rw [htot 0 (by decide)]
      rfl
    · intro i hi
      obtain rfl : i = 0 := by omega
      rw [htot 0 (by decide), htot 1 (by decide)]
      simp
  have hse := sigma_eq v0 v1 [x] a0 b0 c0 a1 b1 c1 A0 B0 A1 B1
  dsimp only at hse
  have hz := (poplar1Verify_of h0 h1).1 (by
    simp only [Nat.cast_zero, Nat.cast_one] at hse
    linear_combination hse + hsig)
  refine ⟨ent v0 0 0, ent v1 0 0, hz, ?_⟩
  have := htot 0 (by decide)
  simpa [tot] using this

end Poplar1
end Vdaf
