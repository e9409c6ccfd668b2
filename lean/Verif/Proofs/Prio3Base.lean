import Verif.Proofs.XofTotal
import Verif.Proofs.FlpProps
import Verif.Spec.Prio3

/-! Helper lemmas for Prio3: blocks of vectors, additive shares as functions, totality of the
auxiliary functions. -/

set_option linter.unusedSectionVars false

namespace Vdaf
open Finset

/-! ### Values of successful computations -/

/-- The value of a successful computation. -/
def okVal {α : Type} [Inhabited α] : Res α → α
  | .ok a => a
  | .error _ => default

theorem okVal_of {α : Type} [Inhabited α] {r : Res α} {a : α} (h : r = .ok a) : r = .ok (okVal r) := by
  subst h; rfl

theorem okVal_eq {α : Type} [Inhabited α] {r : Res α} {a : α} (h : r = .ok a) : okVal r = a := by
  subst h; rfl

/-! ### Blocks -/

section
variable {α : Type}

/-- The `i`-th block of length `k`. -/
def blk (k : ℕ) (l : List α) (i : ℕ) : List α := (l.drop (k * i)).take k

theorem front_blk {k i : ℕ} {l : List α} (h : k * (i + 1) ≤ l.length) :
    front k (l.drop (k * i)) = .ok (blk k l i, l.drop (k * (i + 1))) := by
  rw [mul_add, mul_one] at h
  rw [front_of_le (by rw [List.length_drop]; omega), List.drop_drop, mul_add, mul_one]
  rfl

theorem blk_length {k i : ℕ} {l : List α} (h : k * (i + 1) ≤ l.length) : (blk k l i).length = k := by
  rw [mul_add, mul_one] at h
  unfold blk
  rw [List.length_take, List.length_drop]
  omega

theorem mul_succ_le {k n i : ℕ} (hi : i < n) : k * (i + 1) ≤ k * n := Nat.mul_le_mul_left _ hi

theorem blk_length' {k i n : ℕ} {l : List α} (h : l.length = k * n) (hi : i < n) :
    (blk k l i).length = k := blk_length (by rw [h]; exact mul_succ_le hi)

theorem flatMap_range_length {n k : ℕ} {f : ℕ → List α} (hf : ∀ i < n, (f i).length = k) :
    ((List.range n).flatMap f).length = k * n := by
  induction n with
  | zero => simp
  | succ n ih =>
    rw [List.range_succ, List.flatMap_append, List.length_append, ih fun i hi => hf i (by omega)]
    simp [hf n (by omega), mul_add]

theorem blk_flatMap {k n i : ℕ} {f : ℕ → List α} (hf : ∀ i < n, (f i).length = k) (hi : i < n) :
    blk k ((List.range n).flatMap f) i = f i := by
  induction n with
  | zero => omega
  | succ n ih =>
    have hl := flatMap_range_length (fun i hi => hf i (by omega : i < n + 1)) (n := n)
    rw [List.range_succ, List.flatMap_append]
    simp only [List.flatMap_cons, List.flatMap_nil, List.append_nil]
    unfold blk
    rcases Nat.lt_succ_iff_lt_or_eq.1 hi with h | rfl
    · rw [← ih (fun i hi => hf i (by omega)) h]
      unfold blk
      have := mul_succ_le (k := k) h
      rw [mul_add, mul_one] at this
      rw [List.drop_append_of_le_length (by omega), List.take_append_of_le_length (by
        rw [List.length_drop]; omega)]
    · rw [← hl, List.drop_left, ← hf i (by omega), List.take_length]

theorem flatMap_range_succ {n : ℕ} {f : ℕ → List α} :
    (List.range (n + 1)).flatMap f = (List.range n).flatMap f ++ f n := by
  rw [List.range_succ, List.flatMap_append]; simp

theorem front_tab {n a : ℕ} {f : ℕ → α} (h : a ≤ n) :
    front a (tab n f) = .ok (tab a f, tab (n - a) fun i => f (a + i)) := by
  obtain ⟨m, rfl⟩ := Nat.exists_eq_add_of_le h
  rw [tab_add, front_append' (by simp)]
  simp

theorem setI_self {l : List α} {i : ℕ} {a : α} (h : l[i]? = some a) : setI l i a = .ok l := by
  obtain ⟨hi, rfl⟩ := List.getElem?_eq_some_iff.1 h
  rw [setI_of_lt hi]
  simp

theorem tab_getElem? {n i : ℕ} {f : ℕ → α} (h : i < n) : (tab n f)[i]? = some (f i) := by
  rw [List.getElem?_eq_getElem (by simpa using h), tab_getElem]

end

/-! ### Shares as functions -/

section
variable {F : Type} [NttField F]

/-- The leader's share of `v`: what remains after subtracting the shares `h 0, ..., h (m-1)`. -/
def lead (v : List F) (h : ℕ → List F) (m : ℕ) : List F :=
  tab v.length fun k => coef v k - ∑ i ∈ range m, coef (h i) k

/-- The sequence `a, f 0, f 1, ...` -/
def consFn {α : Type} (a : α) (f : ℕ → α) : ℕ → α
  | 0 => a
  | j + 1 => f j

theorem lead_zero (v : List F) (h : ℕ → List F) : lead v h 0 = v := by
  unfold lead; simp; exact (eq_tab_coef v).symm

theorem lead_length (v : List F) (h : ℕ → List F) (m : ℕ) : (lead v h m).length = v.length := by
  simp [lead]

theorem vecSub_lead {v : List F} {h : ℕ → List F} {m : ℕ} (hm : (h m).length = v.length) :
    vecSub (lead v h m) (h m) = .ok (lead v h (m + 1)) := by
  unfold lead
  rw [eq_tab hm, vecSub_tab]
  congr 1
  apply tab_congr
  intro k hk
  rw [sum_range_succ]
  ring

theorem isSum_lead {v : List F} {h : ℕ → List F} {m N : ℕ} (hN : N = m + 1)
    (hl : ∀ i < m, (h i).length = v.length) :
    Spec.IsSum (fun j : Fin N => consFn (lead v h m) h j) v := by
  subst hN
  rw [isSum_iff]
  constructor
  · rintro ⟨j, hj⟩
    cases j with
    | zero => exact lead_length _ _ _
    | succ j => exact hl j (by omega)
  · intro k
    rw [Fin.sum_univ_succ]
    simp only [Fin.val_zero, consFn, Fin.val_succ]
    rw [Fin.sum_univ_eq_sum_range fun i => coef (h i) k]
    unfold lead
    rw [coef_tab]
    split
    · ring
    · next hk =>
      rw [coef_of_le (by omega), sum_eq_zero]
      · ring
      · intro i hi
        exact coef_of_le (by rw [hl i (by simpa using hi)]; omega)

theorem isSum_blk {ι : Type} [Fintype ι] {vs : ι → List F} {v : List F} (h : Spec.IsSum vs v)
    (k i : ℕ) : Spec.IsSum (fun j => blk k (vs j) i) (blk k v i) :=
  isSum_take (isSum_drop h _) _

end

/-! ### Auxiliary functions -/

/-- An XOF that can produce `fuel` encoded field elements and a seed. -/
def Xof.Ok (X : Xof) (F : Type) [PyField F] : Prop :=
  ∃ B, X.Total B ∧ X.fuel * PyField.encSize F ≤ B ∧ X.seedSize ≤ B

theorem Xof.Ok.turbo (prims : Prims) (fuel : ℕ) (F : Type) [PyField F] :
    (XofTurboShake128 prims fuel).Ok F :=
  ⟨fuel * PyField.encSize F + 32, turbo_total _ _ _, Nat.le_add_right _ _, Nat.le_add_left _ _⟩

theorem byte_of_lt {n : ℕ} (h : n < 256) : byte n = .ok [UInt8.ofNat n] := by
  unfold byte; rw [if_pos h]

theorem dst_total {id usage : ℕ} {ctx : Bytes} (hid : id < 2 ^ 32) (hu : usage < 2 ^ 16)
    (hctx : ctx.length + 8 < 2 ^ 16) :
    ∃ d, domainSeparationTag id usage ctx = .ok d ∧ d.length < 2 ^ 16 := by
  obtain ⟨t, h1, h2⟩ := (formatDst_total 0 id usage).2 ⟨by norm_num, hid, hu⟩
  refine ⟨t ++ ctx, ?_, by rw [List.length_append]; omega⟩
  unfold domainSeparationTag
  rw [h1]; rfl

namespace Prio3
variable {X : Xof} {F : Type} [NttField F] {Meas Agg : Type} {P : Prio3 X F Meas Agg}

/-- What the constructors guarantee, together with the capacity condition of the circuit. -/
structure WF (P : Prio3 X F Meas Agg) : Prop where
  id : P.id < 2 ^ 32
  shares_ge : 2 ≤ P.shares
  shares_lt : P.shares < 256
  modulus : P.shares < PyField.modulus F
  proofs : P.proofs < 256
  proofLen : P.flp.proofLen = .ok P.proofLen
  lawful : P.flp.Lawful
  xof : X.Ok F

/-- Only the bound on the number of rejected samples is exceeded. -/
abbrev Fuel (X : Xof) (F : Type) [NttField F] (e : Err) : Prop := e = .fuel ∧ Spec.SamplerRanOut X F

section
variable (W : P.WF) {ctx : Bytes} (hctx : ctx.length + 8 < 2 ^ 16)
include W hctx

theorem expand_good {usage : ℕ} (hu : usage < 2 ^ 16) {seed binder : Bytes}
    (hs : seed.length = X.seedSize) (n : ℕ) :
    Good (Fuel X F) (do
      let dst ← domainSeparationTag P.id usage ctx
      X.expandIntoVec F seed dst binder n) fun v => v.length = n := by
  obtain ⟨d, h1, h2⟩ := dst_total W.id hu hctx
  rw [h1]
  obtain ⟨B, hB1, hB2, -⟩ := W.xof
  have := expandIntoVec_good (F := F) (binder := binder) hB1 hB2 hs h2 n
  rcases this.cases with ⟨v, hv, hl⟩ | ⟨e, he, rfl⟩
  · simp only [Except.ok_bind']
    exact Good.of_eq hv hl
  · simp only [Except.ok_bind']
    rw [he]
    exact Good.error ⟨rfl, _, _, _, _, he⟩

theorem derive_total {usage : ℕ} (hu : usage < 2 ^ 16) {seed binder : Bytes}
    (hs : seed.length = X.seedSize) :
    ∃ b, (do
      let dst ← domainSeparationTag P.id usage ctx
      X.deriveSeed seed dst binder) = .ok b ∧ b.length = X.seedSize := by
  obtain ⟨d, h1, h2⟩ := dst_total W.id hu hctx
  rw [h1]
  obtain ⟨B, hB1, -, hB2⟩ := W.xof
  exact deriveSeed_total hB1 hB2 hs h2

theorem helperMeasShare_good {j : ℕ} (hj : j < 256) {seed : Bytes} (hs : seed.length = X.seedSize) :
    Good (Fuel X F) (P.helperMeasShare ctx j seed) fun v => v.length = P.flp.measLen := by
  unfold helperMeasShare
  rw [byte_of_lt hj]
  exact expand_good W hctx (by decide) hs _

theorem helperProofsShare_good {j : ℕ} (hj : j < 256) {seed : Bytes} (hs : seed.length = X.seedSize) :
    Good (Fuel X F) (P.helperProofsShare ctx j seed) fun v => v.length = P.proofLen * P.proofs := by
  unfold helperProofsShare
  rw [byte_of_lt hj, byte_of_lt W.proofs]
  exact expand_good W hctx (by decide) hs _

theorem proveRands_good {seed : Bytes} (hs : seed.length = X.seedSize) :
    Good (Fuel X F) (P.proveRands ctx seed) fun v => v.length = P.flp.proveRandLen * P.proofs := by
  unfold proveRands
  rw [byte_of_lt W.proofs]
  exact expand_good W hctx (by decide) hs _

theorem queryRands_good {key nonce : Bytes} (hs : key.length = X.seedSize) :
    Good (Fuel X F) (P.queryRands key ctx nonce) fun v => v.length = P.flp.queryRandLen * P.proofs := by
  unfold queryRands
  rw [byte_of_lt W.proofs]
  exact expand_good W hctx (by decide) hs _

theorem jointRands_good {seed : Bytes} (hs : seed.length = X.seedSize) :
    Good (Fuel X F) (P.jointRands ctx seed) fun v => v.length = P.flp.jointRandLen * P.proofs := by
  unfold jointRands
  rw [byte_of_lt W.proofs]
  exact expand_good W hctx (by decide) hs _

theorem jointRandPart_total {j : ℕ} (hj : j < 256) {blind : Bytes} (hs : blind.length = X.seedSize)
    (meas : List F) (nonce : Bytes) :
    ∃ b, P.jointRandPart ctx j blind meas nonce = .ok b ∧ b.length = X.seedSize := by
  unfold jointRandPart
  rw [byte_of_lt hj, encodeVec_eq]
  exact derive_total W hctx (by decide) hs

theorem jointRandSeed_total (parts : List Bytes) :
    ∃ b, P.jointRandSeed ctx parts = .ok b ∧ b.length = X.seedSize := by
  unfold jointRandSeed
  exact derive_total W hctx (by decide) (by simp [zeros])

end

/-! The derivations in terms of the specification. -/

theorem ofNat_mod256 (n : ℕ) : UInt8.ofNat (n % 256) = UInt8.ofNat n := by
  apply UInt8.toNat_inj.1
  simp

theorem tag_ok_iff {id usage : ℕ} {ctx d : Bytes} : domainSeparationTag id usage ctx = .ok d ↔
    id < 2 ^ 32 ∧ usage < 2 ^ 16 ∧ d = Spec.tag id usage ctx := by
  have key : id < 2 ^ 32 → usage < 2 ^ 16 →
      domainSeparationTag id usage ctx = .ok (Spec.tag id usage ctx) := by
    intro h1 h2
    unfold domainSeparationTag formatDst
    rw [toBeBytes_nat (show VERSION < 256 ^ 1 by decide)]
    rw [toBeBytes_nat (show 0 < 256 ^ 1 by decide)]
    rw [toBeBytes_nat (show id < 256 ^ 4 by omega), toBeBytes_nat (show usage < 256 ^ 2 by omega)]
    simp [natToLe, ofNat_mod256, Spec.tag, concat, VERSION, Nat.div_div_eq_div_mul]
  constructor
  · intro h
    have h0 := h
    unfold domainSeparationTag at h
    rw [Except.bind_eq_ok] at h
    obtain ⟨t, h1, h⟩ := h
    have hl : t.length = 8 := by
      unfold formatDst at h1
      obtain ⟨v, hv, h1⟩ := Except.bind_eq_ok.1 h1
      obtain ⟨c1, hc, h1⟩ := Except.bind_eq_ok.1 h1
      obtain ⟨a1, ha, h1⟩ := Except.bind_eq_ok.1 h1
      obtain ⟨u1, hu, h1⟩ := Except.bind_eq_ok.1 h1
      cases h1
      simp [concat, toBeBytes_length hv, toBeBytes_length hc, toBeBytes_length ha,
        toBeBytes_length hu]
    obtain ⟨-, a, b⟩ := (formatDst_total 0 id usage).1 ⟨t, h1, hl⟩
    refine ⟨a, b, ?_⟩
    rw [key a b] at h0
    exact (Except.ok.inj h0).symm
  · rintro ⟨a, b, rfl⟩
    exact key a b

theorem byte_ok_iff {n : ℕ} {b : Bytes} : byte n = .ok b ↔ n < 256 ∧ b = [UInt8.ofNat n] := by
  unfold byte
  split
  · next h => simp [h, eq_comm]
  · next h => simp [h]

theorem measShare_ok {ctx s : Bytes} {j : ℕ} {v : List F} : P.helperMeasShare ctx j s = .ok v ↔
    P.id < 2 ^ 32 ∧ j < 256 ∧ Spec.measShare P ctx j s = .ok v := by
  simp only [helperMeasShare, Except.bind_eq_ok, tag_ok_iff, byte_ok_iff, Spec.measShare,
    USAGE_MEAS_SHARE]
  aesop

theorem proofsShare_ok {ctx s : Bytes} {j : ℕ} {v : List F} : P.helperProofsShare ctx j s = .ok v ↔
    P.id < 2 ^ 32 ∧ P.proofs < 256 ∧ j < 256 ∧ Spec.proofsShare P ctx j s = .ok v := by
  simp only [helperProofsShare, Except.bind_eq_ok, tag_ok_iff, byte_ok_iff, Spec.proofsShare,
    USAGE_PROOF_SHARE]
  aesop

theorem jointRands_ok {ctx s : Bytes} {v : List F} : P.jointRands ctx s = .ok v ↔
    P.id < 2 ^ 32 ∧ P.proofs < 256 ∧ Spec.jointRands P ctx s = .ok v := by
  simp only [jointRands, Except.bind_eq_ok, tag_ok_iff, byte_ok_iff, Spec.jointRands,
    USAGE_JOINT_RANDOMNESS]
  aesop

theorem proveRands_ok {ctx s : Bytes} {v : List F} : P.proveRands ctx s = .ok v ↔
    P.id < 2 ^ 32 ∧ P.proofs < 256 ∧ Spec.proveRands P ctx s = .ok v := by
  simp only [proveRands, Except.bind_eq_ok, tag_ok_iff, byte_ok_iff, Spec.proveRands,
    USAGE_PROVE_RANDOMNESS]
  aesop

theorem queryRands_ok {vk ctx nonce : Bytes} {v : List F} : P.queryRands vk ctx nonce = .ok v ↔
    P.id < 2 ^ 32 ∧ P.proofs < 256 ∧ Spec.queryRands P vk ctx nonce = .ok v := by
  simp only [queryRands, Except.bind_eq_ok, tag_ok_iff, byte_ok_iff, Spec.queryRands,
    USAGE_QUERY_RANDOMNESS]
  aesop

theorem jointRandSeed_ok {ctx : Bytes} {parts : List Bytes} {v : Bytes} :
    P.jointRandSeed ctx parts = .ok v ↔
    P.id < 2 ^ 32 ∧ Spec.jointRandSeed P ctx parts = .ok v := by
  simp only [jointRandSeed, Except.bind_eq_ok, tag_ok_iff, Spec.jointRandSeed,
    USAGE_JOINT_RAND_SEED, zeros, concat]
  aesop

theorem jointRandPart_ok {ctx blind nonce : Bytes} {j : ℕ} {ms : List F} {v : Bytes} :
    P.jointRandPart ctx j blind ms nonce = .ok v ↔
    P.id < 2 ^ 32 ∧ j < 256 ∧ Spec.jointRandPart P ctx j blind ms nonce = .ok v := by
  simp only [jointRandPart, Except.bind_eq_ok, tag_ok_iff, byte_ok_iff, Spec.jointRandPart,
    USAGE_JOINT_RAND_PART, encodeVec_eq]
  aesop

theorem expandInputShare_ok {ctx : Bytes} {j : ℕ} {s : Prio3InputShare F} {ms ps : List F}
    {bl : Option Bytes} (h : P.expandInputShare ctx j s = .ok (ms, ps, bl)) :
    Spec.Expands P ctx j s ms ps bl := by
  unfold expandInputShare at h
  split at h
  · next hj =>
    cases s with
    | leader => cases h
    | helper seed b =>
      dsimp only at h
      simp only [Except.bind_eq_ok, Except.pure_eq', Except.ok.injEq, Prod.mk.injEq] at h
      obtain ⟨m, hm, p, hp, rfl, rfl, rfl⟩ := h
      exact .inr ⟨hj, seed, rfl, (measShare_ok.1 hm).2.2, (proofsShare_ok.1 hp).2.2.2⟩
  · next hj =>
    cases s with
    | helper => cases h
    | leader m p b =>
      cases h
      exact .inl ⟨by omega, rfl⟩

theorem expandInputShare_of {ctx : Bytes} {j : ℕ} {s : Prio3InputShare F} {ms ps : List F}
    {bl : Option Bytes} (hid : P.id < 2 ^ 32) (hp : P.proofs < 256) (hj : j < 256)
    (h : Spec.Expands P ctx j s ms ps bl) : P.expandInputShare ctx j s = .ok (ms, ps, bl) := by
  unfold expandInputShare
  rcases h with ⟨rfl, rfl⟩ | ⟨h0, seed, rfl, h1, h2⟩
  · rfl
  · rw [if_pos h0]
    dsimp only
    rw [measShare_ok.2 ⟨hid, hj, h1⟩, proofsShare_ok.2 ⟨hid, hp, hj, h2⟩]
    rfl

end Prio3
end Vdaf
