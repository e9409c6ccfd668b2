import Verif.Proofs.PoplarTree
import Verif.Proofs.Poplar1Privacy

/-! Sharding in Poplar1 as a function of streams. -/

set_option linter.unusedSectionVars false

namespace Vdaf.PO
open Spec (bytesAt poplarIdpf levelKind sumAB)

/-- The elements that the Client draws: the authenticators and, for both Aggregators, the correlated randomness -/
structure Vals where
  ks : List (Fk .inner)
  kl : List (Fk .leaf)
  u : ℕ → List (Fk .inner)
  w : ℕ → List (Fk .leaf)

/-- The three elements of a level -/
def triAt (l : List (Fk .inner)) (m : List (Fk .leaf)) (ℓ : ℕ) : (κ : Kind) → Fk κ × Fk κ × Fk κ
  | .inner => (coef (F := Fk .inner) l (3 * ℓ), coef (F := Fk .inner) l (3 * ℓ + 1), coef (F := Fk .inner) l (3 * ℓ + 2))
  | .leaf => (coef (F := Fk .leaf) m 0, coef (F := Fk .leaf) m 1, coef (F := Fk .leaf) m 2)

/-- The authenticator of a level -/
def kAt (ks : List (Fk .inner)) (kl : List (Fk .leaf)) (ℓ : ℕ) : (κ : Kind) → Fk κ
  | .inner => coef (F := Fk .inner) ks ℓ
  | .leaf => coef (F := Fk .leaf) kl 0

def Vals.tri (V : Vals) (j ℓ : ℕ) (κ : Kind) : Fk κ × Fk κ × Fk κ := triAt (V.u j) (V.w j) ℓ κ
def Vals.k (V : Vals) (ℓ : ℕ) (κ : Kind) : Fk κ := kAt V.ks V.kl ℓ κ
/-- The sums `A` and `B` of a level -/
def Vals.ab (V : Vals) (ℓ : ℕ) (κ : Kind) : Fk κ × Fk κ := sumAB (V.tri 0 ℓ κ) (V.tri 1 ℓ κ) (V.k ℓ κ)

section
variable (bits fuel : ℕ)

/-- The loop over the levels -/
def pairStep (sh : Str) (AB : (ℓ : ℕ) → (κ : Kind) → Fk κ × Fk κ) (st : ℕ × Poplar1.CorrState) (ℓ : ℕ) :
    Res (ℕ × Poplar1.CorrState) :=
  sampS (Fk (levelKind bits ℓ)) sh fuel st.1 2 >>= fun r =>
    .ok (r.2, st.2.push _ (List.zipWith (· - ·) [(AB ℓ (levelKind bits ℓ)).1, (AB ℓ (levelKind bits ℓ)).2] r.1) r.1)

def pairsS (sh : Str) (pos : ℕ) (AB : (ℓ : ℕ) → (κ : Kind) → Fk κ × Fk κ) : Res (ℕ × Poplar1.CorrState) :=
  forFold (List.range bits) (pos, ⟨[], [], none⟩) (pairStep bits fuel sh AB)

/-- What the Client computes -/
structure Sh where
  pub : List CorrectionWord
  V : Vals
  corr : Poplar1.CorrState

def pair {α : Type} (x y : α) (j : ℕ) : α := if j = 0 then x else y

/-- Sharding, with the streams of the Client's own randomness, those of the correlated randomness of the Aggregators, and
the public share as a function of the authenticators -/
def shardS (sh : Str) (ci cl : ℕ → Str) (g : List (Fk .inner) → List (Fk .leaf) → Res (List CorrectionWord)) : Res Sh :=
  sampS (Fk .inner) sh fuel 0 (bits - 1) >>= fun k1 =>
  sampS (Fk .leaf) sh fuel k1.2 1 >>= fun k2 =>
  g k1.1 k2.1 >>= fun pub =>
  sampS (Fk .inner) (ci 0) fuel 0 (3 * (bits - 1)) >>= fun u0 =>
  sampS (Fk .inner) (ci 1) fuel 0 (3 * (bits - 1)) >>= fun u1 =>
  sampS (Fk .leaf) (cl 0) fuel 0 3 >>= fun w0 =>
  sampS (Fk .leaf) (cl 1) fuel 0 3 >>= fun w1 =>
  pairsS bits fuel sh k2.2 (Vals.ab ⟨k1.1, k2.1, pair u0.1 u1.1, pair w0.1 w1.1⟩) >>= fun c =>
  .ok ⟨pub, ⟨k1.1, k2.1, pair u0.1 u1.1, pair w0.1 w1.1⟩, c.2⟩

end

/-- The input share of Aggregator `j` -/
def Sh.share (s : Sh) (key seed : Bytes) (j : ℕ) : Poplar1InputShare :=
  ⟨key, seed, if j = 0 then s.corr.inner0 else s.corr.inner1,
    match s.corr.leaf with | some l => if j = 0 then l.1 else l.2 | none => []⟩

section
variable {bits : ℕ} {prims : Prims} {fuel : ℕ} {ctx nonce : Bytes}

theorem corrLevel_eq {κ : Kind} {level : ℕ} (hκ : levelKind bits level = κ)
    {bi : List (List (Fk .inner))} {bl : List (Fk .leaf)} {m : Bytes} {pos : ℕ} {offsets : List (Σ κ, Fk κ)}
    {corr : Poplar1.CorrState} {a b c : Fk κ}
    (hoff : offsets.take 3 = [⟨κ, a⟩, ⟨κ, b⟩, ⟨κ, c⟩]) {one k : Fk κ}
    (hb : Idpf.betaAt bi bl level κ = .ok [one, k]) :
    (⟨poplarIdpf bits⟩ : Poplar1).corrLevel prims fuel bi bl ((⟨m, pos⟩ : TurboShakeState), offsets, corr) level =
      (sampS (Fk κ) (prims.turboShake m 1) fuel pos 2 >>= fun r => .ok ((⟨m, r.2⟩ : TurboShakeState), offsets.drop 3,
        corr.push κ (List.zipWith (· - ·) [-2 * a + k, a ^ 2 + b - a * k + c] r.1) r.1)) := by
  subst hκ
  unfold Poplar1.corrLevel
  dsimp only
  rw [hb]
  simp only [Except.ok_bind']
  rw [show getI [one, k] 1 = .ok k from rfl, hoff]
  simp only [Except.ok_bind']
  rw [Poplar1.ofInt_two (Poplar1.two_lt_modulus _)]
  simp only [Except.ok_bind', castElem_self]
  rw [turbo_sampS]
  cases hr : sampS (Fk (levelKind bits level)) (prims.turboShake m 1) fuel pos 2 with
  | error e => rfl
  | ok r =>
    have hv : vecSub [-2 * a + k, a ^ 2 + b - a * k + c] r.1 =
        .ok (List.zipWith (· - ·) [-2 * a + k, a ^ 2 + b - a * k + c] r.1) := by
      unfold vecSub
      rw [if_neg (by rw [(sampS_ok hr).1]; simp)]
    change (vecSub [-2 * a + k, a ^ 2 + b - a * k + c] r.1 >>= fun corr0 => Except.ok ((⟨m, r.2⟩ : TurboShakeState),
      offsets.drop 3, corr.push (levelKind bits level) corr0 r.1)) = _
    rw [hv]
    rfl

theorem two_coef {F : Type} [PyField F] {l : List F} {n : ℕ} (h : n + 3 ≤ l.length) :
    (l.drop n).take 3 = [coef l n, coef l (n + 1), coef l (n + 2)] := by
  apply List.ext_getElem
  · simp; omega
  · intro i h1 h2
    simp only [List.length_cons, List.length_nil] at h2
    simp only [List.getElem_take, List.getElem_drop]
    have : i = 0 ∨ i = 1 ∨ i = 2 := by omega
    rcases this with rfl | rfl | rfl
    · simp [coef_of_lt (show n < l.length by omega)]
    · simp [coef_of_lt (show n + 1 < l.length by omega)]
    · simp [coef_of_lt (show n + 2 < l.length by omega)]

theorem coef_zipWith_add {F : Type} [PyField F] {l m : List F} (h : l.length = m.length) (i : ℕ) :
    coef (List.zipWith (· + ·) l m) i = coef l i + coef m i := by
  by_cases hi : i < l.length
  · rw [coef_of_lt (by simp; omega), coef_of_lt hi, coef_of_lt (by omega)]
    simp
  · rw [coef_of_le (by simp; omega), coef_of_le (by omega), coef_of_le (by omega), add_zero]

theorem corrLoop_eq (hb : 0 < bits) {V : Vals} (hks : V.ks.length = bits - 1) {kLeaf : Fk .leaf} (hkl : V.kl = [kLeaf])
    (h0 : (V.u 0).length = 3 * (bits - 1)) (h1 : (V.u 1).length = 3 * (bits - 1)) (h2 : (V.w 0).length = 3)
    (h3 : (V.w 1).length = 3) (m : Bytes) (pos : ℕ) {offInner : List (Fk .inner)} {offLeaf : List (Fk .leaf)}
    (ho : offInner = List.zipWith (· + ·) (V.u 0) (V.u 1)) (hl : offLeaf = List.zipWith (· + ·) (V.w 0) (V.w 1))
    {offsets : List (Σ κ, Fk κ)}
    (hoff : offsets = offInner.map (fun x => (⟨.inner, x⟩ : Σ κ, Fk κ)) ++ offLeaf.map (fun x => (⟨.leaf, x⟩ : Σ κ, Fk κ))) :
    ∀ n ≤ bits, forFold (List.range n) ((⟨m, pos⟩ : TurboShakeState), offsets, (⟨[], [], none⟩ : Poplar1.CorrState))
      ((⟨poplarIdpf bits⟩ : Poplar1).corrLevel prims fuel (V.ks.map fun k => ([1, k] : List (Fk .inner))) ([1] ++ V.kl : List (Fk .leaf))) =
      (forFold (List.range n) (pos, ⟨[], [], none⟩) (pairStep bits fuel (prims.turboShake m 1) V.ab) >>= fun r =>
        .ok ((⟨m, r.1⟩ : TurboShakeState), offsets.drop (3 * n), r.2)) := by
  have lo : offInner.length = 3 * (bits - 1) := by rw [ho]; simp [h0, h1]
  have ll : offLeaf.length = 3 := by rw [hl]; simp [h2, h3]
  intro n
  induction n with
  | zero => intro _; simp only [List.range_zero, forFold_nil]; rfl
  | succ n ih =>
    intro hn
    rw [List.range_succ]
    erw [forFold_append, forFold_append, ih (by omega)]
    cases forFold (List.range n) (pos, ⟨[], [], none⟩) (pairStep bits fuel (prims.turboShake m 1) V.ab) with
    | error e => rfl
    | ok r =>
      obtain ⟨q, corr⟩ := r
      have hd : ∀ x : List (Σ κ, Fk κ), x = offsets.drop (3 * n) → x.drop 3 = offsets.drop (3 * (n + 1)) := by
        rintro x rfl
        rw [List.drop_drop]; congr 1
      simp only [Except.ok_bind', forFold_cons, forFold_nil]
      by_cases hi : n < bits - 1
      · have hκ : levelKind bits n = .inner := Idpf.currentField_inner (I := poplarIdpf bits) hi
        have e1 : (offsets.drop (3 * n)).take 3 = [⟨.inner, coef (F := Fk .inner) offInner (3 * n)⟩,
            ⟨.inner, coef (F := Fk .inner) offInner (3 * n + 1)⟩, ⟨.inner, coef (F := Fk .inner) offInner (3 * n + 2)⟩] := by
          rw [hoff, List.drop_append_of_le_length (by simp; omega), List.take_append_of_le_length (by simp; omega),
            ← List.map_drop, ← List.map_take, two_coef (F := Fk .inner) (by omega)]
          rfl
        have e2 : Idpf.betaAt (V.ks.map fun k => ([1, k] : List (Fk .inner))) ([1] ++ V.kl : List (Fk .leaf)) n .inner = .ok [1, coef (F := Fk .inner) V.ks n] := by
          show getI (List.map (fun k => ([1, k] : List (Fk .inner))) V.ks) n = _
          rw [getI_of_lt (by simp; omega), List.getElem_map, coef_of_lt (by omega)]
        erw [forFold_cons, corrLevel_eq hκ e1 e2, hd _ rfl]
        unfold pairStep
        rw [hκ]
        cases sampS (Fk .inner) (prims.turboShake m 1) fuel q 2 with
        | error e => rfl
        | ok r =>
          simp only [Except.ok_bind']
          rw [ho, coef_zipWith_add (F := Fk .inner) (h0.trans h1.symm), coef_zipWith_add (F := Fk .inner) (h0.trans h1.symm),
            coef_zipWith_add (F := Fk .inner) (h0.trans h1.symm)]
          rfl
      · have hκ : levelKind bits n = .leaf := Idpf.currentField_leaf (I := poplarIdpf bits) hi
        have hn' : n = bits - 1 := by omega
        have e1 : (offsets.drop (3 * n)).take 3 = [⟨.leaf, coef (F := Fk .leaf) offLeaf 0⟩,
            ⟨.leaf, coef (F := Fk .leaf) offLeaf 1⟩, ⟨.leaf, coef (F := Fk .leaf) offLeaf 2⟩] := by
          rw [hoff, List.drop_append, List.drop_of_length_le (by simp; omega), List.nil_append]
          rw [show 3 * n - (List.map (fun x => (⟨.inner, x⟩ : Σ κ, Fk κ)) offInner).length = 0 by simp; omega, ← List.map_drop,
            ← List.map_take, two_coef (F := Fk .leaf) (by omega)]
          rfl
        have e2 : Idpf.betaAt (V.ks.map fun k => ([1, k] : List (Fk .inner))) ([1] ++ V.kl : List (Fk .leaf)) n .leaf = .ok [1, coef (F := Fk .leaf) V.kl 0] := by
          rw [hkl]; rfl
        erw [forFold_cons, corrLevel_eq hκ e1 e2, hd _ rfl]
        unfold pairStep
        rw [hκ]
        cases sampS (Fk .leaf) (prims.turboShake m 1) fuel q 2 with
        | error e => rfl
        | ok r =>
          simp only [Except.ok_bind']
          rw [hl, coef_zipWith_add (F := Fk .leaf) (h2.trans h3.symm), coef_zipWith_add (F := Fk .leaf) (h2.trans h3.symm),
            coef_zipWith_add (F := Fk .leaf) (h2.trans h3.symm)]
          rfl


/-! ### Sharding -/

def keyOf (rand : Bytes) (j : ℕ) : Bytes := slice rand (16 * j) (16 * j + 16)
def seedOf (rand : Bytes) (j : ℕ) : Bytes := slice rand (32 + 32 * j) (64 + 32 * j)
def ssOf (rand : Bytes) : Bytes := slice rand 96 128

/-- The values programmed into the IDPF -/
def gBeta (bits : ℕ) (ks : List (Fk .inner)) (kl : List (Fk .leaf)) (ℓ : ℕ) : List (Fk (levelKind bits ℓ)) :=
  [1, kAt ks kl ℓ _]

theorem gBeta_eq {ks : List (Fk .inner)} {kl : List (Fk .leaf)} (hks : ks.length = bits - 1) (hkl : kl.length = 1) (ℓ : ℕ) :
    Idpf.betaFun (ks.map fun k => ([1, k] : List (Fk .inner))) ([1] ++ kl : List (Fk .leaf)) ℓ (levelKind bits ℓ) =
      gBeta bits ks kl ℓ := by
  unfold gBeta
  by_cases hi : ℓ < bits - 1
  · have hκ : levelKind bits ℓ = .inner := Idpf.currentField_inner (I := poplarIdpf bits) hi
    rw [hκ]
    show (List.map (fun k => ([1, k] : List (Fk .inner))) ks).getD ℓ [] = [1, coef ks ℓ]
    rw [List.getD_eq_getElem?_getD, List.getElem?_map, List.getElem?_eq_getElem (by omega), coef_of_lt (by omega)]
    rfl
  · have hκ : levelKind bits ℓ = .leaf := Idpf.currentField_leaf (I := poplarIdpf bits) hi
    rw [hκ]
    obtain ⟨k, rfl⟩ := List.length_eq_one_iff.1 hkl
    rfl

theorem pairsS_leaf (hb : 0 < bits) {sh : Str} {pos : ℕ} {AB : (ℓ : ℕ) → (κ : Kind) → Fk κ × Fk κ} {r : ℕ × Poplar1.CorrState}
    (h : pairsS bits fuel sh pos AB = .ok r) : ∃ l0 l1, r.2.leaf = some (l0, l1) := by
  unfold pairsS at h
  obtain ⟨n, rfl⟩ : ∃ n, bits = n + 1 := ⟨bits - 1, by omega⟩
  rw [List.range_succ, forFold_append, Except.bind_eq_ok] at h
  obtain ⟨st, -, h⟩ := h
  rw [forFold_cons, Except.bind_eq_ok] at h
  obtain ⟨st', h, h'⟩ := h
  cases h'
  unfold pairStep at h
  have hκ : levelKind (n + 1) n = .leaf := Idpf.currentField_leaf (I := poplarIdpf (n + 1)) (show ¬ n < n + 1 - 1 by omega)
  rw [hκ, Except.bind_eq_ok] at h
  obtain ⟨v, -, h⟩ := h
  cases h
  exact ⟨_, _, rfl⟩

theorem corrOffsets_eq {κ : Kind} {usage : ℕ} {ctx nonce s0 s1 : Bytes} (hu : usage < 2 ^ 16) (hc : Idpf.CtxOk ctx)
    (h0 : s0.length = 32) (h1 : s1.length = 32) (n : ℕ) :
    Poplar1.corrOffsets prims fuel κ usage ctx nonce s0 s1 n =
      (sampS (Fk κ) (Spec.turboStream prims s0 (Spec.tag 6 usage ctx) (0 :: nonce)) fuel 0 n >>= fun a =>
        sampS (Fk κ) (Spec.turboStream prims s1 (Spec.tag 6 usage ctx) (1 :: nonce)) fuel 0 n >>= fun b =>
          .ok (List.zipWith (· + ·) a.1 b.1)) := by
  unfold Poplar1.corrOffsets
  obtain ⟨d, hd, hdl⟩ := Poplar1.dst_ok hu hc
  have hd' := Poplar1.dst_eq hd
  rw [hd]
  simp only [Except.ok_bind']
  rw [show byte 0 = .ok [0] from rfl, show byte 1 = .ok [1] from rfl]
  simp only [Except.ok_bind']
  unfold Poplar1.xof
  rw [expand_sampS hdl (by omega), expand_sampS hdl (by omega), hd']
  cases h2 : sampS (Fk κ) (Spec.turboStream prims s0 (Spec.tag 6 usage ctx) ([0] ++ nonce)) fuel 0 n with
  | error e =>
    rw [show (0 :: nonce) = [0] ++ nonce from rfl, h2]; rfl
  | ok a =>
    rw [show (0 :: nonce) = [0] ++ nonce from rfl, h2]
    simp only [Except.ok_bind']
    rw [show (1 :: nonce) = [1] ++ nonce from rfl]
    cases h3 : sampS (Fk κ) (Spec.turboStream prims s1 (Spec.tag 6 usage ctx) ([1] ++ nonce)) fuel 0 n with
    | error e => rfl
    | ok b =>
      simp only [Except.ok_bind']
      unfold vecAdd
      rw [if_neg (by rw [(sampS_ok h2).1, (sampS_ok h3).1]; simp)]

theorem shard_eq (hf : fuel < 2 ^ 120) (hb : 0 < bits) (hc : Idpf.CtxOk ctx) {alpha : List Bool} (ha : alpha.length = bits)
    (hn : nonce.length = 16) {rand : Bytes} (hr : rand.length = 128) {T : Tree} (hTb : T.b = 0 ∨ T.b = 1)
    (h1 : T.Sb = srcOf prims bits ctx nonce) (h2 : T.Sj = srcOf prims bits ctx nonce) (h3 : T.alpha = bitOf alpha)
    (h4 : ord T.b T.keyb T.keyj = (keyOf rand 0, keyOf rand 1)) :
    (⟨poplarIdpf bits⟩ : Poplar1).shard prims fuel ctx alpha nonce rand =
      (shardS bits fuel (Spec.shardStream prims (ssOf rand) ctx nonce)
        (fun j => Spec.corrInnerStream prims (seedOf rand j) ctx nonce j)
        (fun j => Spec.corrLeafStream prims (seedOf rand j) ctx nonce j)
        (fun ks kl => T.pub fuel bits (gBeta bits ks kl)) >>= fun s =>
          .ok (s.pub, [s.share (keyOf rand 0) (seedOf rand 0) 0, s.share (keyOf rand 1) (seedOf rand 1) 1])) := by
  have hrs : rand.length = Poplar1.randSize prims fuel := hr
  unfold Poplar1.shard
  rw [raiseIf_of_not (show ¬ nonce.length ≠ Poplar1.NONCE_SIZE from fun h => h hn)]
  simp only [Except.ok_bind']
  rw [raiseIf_of_not (show ¬ rand.length ≠ Poplar1.randSize prims fuel from fun h => h hrs)]
  simp only [Except.ok_bind']
  rw [front_of_le (show Idpf.RAND_SIZE ≤ rand.length by rw [hr]; decide)]
  simp only [Except.ok_bind']
  have hch : chunks (rand.drop Idpf.RAND_SIZE) 3 (Poplar1.xof prims fuel).seedSize =
      [seedOf rand 0, seedOf rand 1, ssOf rand] := by
    show [slice (rand.drop 32) 0 32, slice (rand.drop 32) 32 64, slice (rand.drop 32) 64 96] = _
    unfold seedOf ssOf slice
    simp only [List.drop_take, List.drop_drop]
  rw [hch]
  have l0 : (seedOf rand 0).length = 32 := by unfold seedOf; rw [slice_length _ _ _ (by omega)]
  have l1 : (seedOf rand 1).length = 32 := by unfold seedOf; rw [slice_length _ _ _ (by omega)]
  have l2 : (ssOf rand).length = 32 := by unfold ssOf; rw [slice_length _ _ _ (by omega)]
  rw [show front 2 [seedOf rand 0, seedOf rand 1, ssOf rand] = .ok ([seedOf rand 0, seedOf rand 1], [ssOf rand]) from rfl]
  simp only [Except.ok_bind']
  rw [show getI [seedOf rand 0, seedOf rand 1] 0 = .ok (seedOf rand 0) from rfl,
    show getI [seedOf rand 0, seedOf rand 1] 1 = .ok (seedOf rand 1) from rfl,
    show front 1 [ssOf rand] = .ok ([ssOf rand], []) from rfl]
  simp only [Except.ok_bind']
  rw [show getI [ssOf rand] 0 = .ok (ssOf rand) from rfl]
  simp only [Except.ok_bind']
  obtain ⟨tag, hd, hdl⟩ := Poplar1.dst_ok (show USAGE_SHARD_RAND < 2 ^ 16 by decide) hc
  rw [hd]
  simp only [Except.ok_bind']
  obtain ⟨X, hX⟩ : ∃ X : ℕ → (Poplar1.xof prims fuel).State,
      X = fun pos => (⟨turboInput (ssOf rand) tag nonce, pos⟩ : TurboShakeState) := ⟨_, rfl⟩
  have hx : (Poplar1.xof prims fuel).init (ssOf rand) tag nonce = .ok (X 0) := by
    rw [hX]
    show (XofTurboShake128 prims fuel).init _ _ _ = _
    rw [turbo_init, if_pos hdl, if_pos (by omega)]
  rw [hx]
  have hsh : prims.turboShake (turboInput (ssOf rand) tag nonce) 1 = Spec.shardStream prims (ssOf rand) ctx nonce := by
    rw [Poplar1.dst_eq hd]; rfl
  have hnext : ∀ (F : Type) [PyField F] (pos n : ℕ), (Poplar1.xof prims fuel).nextVec F fuel (X pos) n =
      (sampS F (Spec.shardStream prims (ssOf rand) ctx nonce) fuel pos n >>= fun r => .ok (r.1, X r.2)) := by
    intro F _ pos n
    rw [← hsh, hX]
    exact turbo_sampS _ _ _ _ _ _
  simp only [Except.ok_bind']
  unfold shardS
  rw [raiseIf_of_not (show ¬ rand.length ≠ Poplar1.randSize prims fuel from fun h => h hrs)]
  simp only [Except.ok_bind']
  rw [hnext, Poplar1.ofInt_one (by decide +kernel), Poplar1.ofInt_one (by decide +kernel)]
  change ((sampS (Fk .inner) (Spec.shardStream prims (ssOf rand) ctx nonce) fuel 0 (bits - 1) >>= fun r => _) >>= _) = _
  cases hk1 : sampS (Fk .inner) (Spec.shardStream prims (ssOf rand) ctx nonce) fuel 0 (bits - 1) with
  | error e => rfl
  | ok k1 =>
  simp only [Except.ok_bind']
  rw [hnext]
  change ((sampS (Fk .leaf) (Spec.shardStream prims (ssOf rand) ctx nonce) fuel k1.2 1 >>= fun r => _) >>= _) = _
  cases hk2 : sampS (Fk .leaf) (Spec.shardStream prims (ssOf rand) ctx nonce) fuel k1.2 1 with
  | error e => rfl
  | ok k2 =>
  simp only [Except.ok_bind']
  have lk1 := (sampS_ok hk1).1
  have lk2 := (sampS_ok hk2).1
  have e16 : (rand.take Idpf.RAND_SIZE).take 16 = keyOf rand 0 ∧ (rand.take Idpf.RAND_SIZE).drop 16 = keyOf rand 1 := by
    unfold keyOf slice Idpf.RAND_SIZE
    constructor
    · simp [List.take_take]
    · simp
  have lb1 : (k1.1.map fun k => ([1, k] : List (Fk .inner))).length = bits - 1 := by rw [List.length_map, lk1]
  have lb2 : ∀ x ∈ (k1.1.map fun k => ([1, k] : List (Fk .inner))), x.length = 2 := by
    intro x hx; rw [List.mem_map] at hx; obtain ⟨k, -, rfl⟩ := hx; rfl
  have lb3 : ([1] ++ k2.1 : List (Fk .leaf)).length = 2 := by simp [lk2]
  have hg := gen_pub (bits := bits) (prims := prims) (fuel := fuel) (ctx := ctx) (nonce := nonce) hf hc ha
    (bi := k1.1.map fun k => ([1, k] : List (Fk .inner))) (bl := ([1] ++ k2.1 : List (Fk .leaf)))
    lb1 lb2 lb3 hn (rand := rand.take Idpf.RAND_SIZE) (by simp [hr, Idpf.RAND_SIZE]) hTb h1 h2 h3
    (by rw [h4, e16.1, e16.2])
  rw [e16.1, e16.2] at hg
  have hpub : T.pub fuel bits (fun ℓ => Idpf.betaFun (k1.1.map fun k => ([1, k] : List (Fk .inner)))
      ([1] ++ k2.1 : List (Fk .leaf)) ℓ _) = T.pub fuel bits (gBeta bits k1.1 k2.1) := by
    unfold Tree.pub
    apply mapRes_congr
    intro ℓ _
    exact congrArg (fun v => T.word fuel (levelKind bits ℓ) v ℓ) (gBeta_eq lk1 lk2 ℓ)
  rw [hpub] at hg
  erw [hg]
  cases T.pub fuel bits (gBeta bits k1.1 k2.1) with
  | error e => rfl
  | ok pub =>
  simp only [Except.ok_bind']
  rw [corrOffsets_eq (by decide) hc l0 l1, corrOffsets_eq (by decide) hc l0 l1]
  change ((sampS (Fk .inner) (Spec.corrInnerStream prims (seedOf rand 0) ctx nonce 0) fuel 0 (3 * (bits - 1)) >>= fun a =>
    sampS (Fk .inner) (Spec.corrInnerStream prims (seedOf rand 1) ctx nonce 1) fuel 0 (3 * (bits - 1)) >>= fun b => _) >>= _) = _
  cases hu0 : sampS (Fk .inner) (Spec.corrInnerStream prims (seedOf rand 0) ctx nonce 0) fuel 0 (3 * (bits - 1)) with
  | error e => rfl
  | ok u0 =>
  simp only [Except.ok_bind']
  cases hu1 : sampS (Fk .inner) (Spec.corrInnerStream prims (seedOf rand 1) ctx nonce 1) fuel 0 (3 * (bits - 1)) with
  | error e => rfl
  | ok u1 =>
  simp only [Except.ok_bind']
  change ((sampS (Fk .leaf) (Spec.corrLeafStream prims (seedOf rand 0) ctx nonce 0) fuel 0 3 >>= fun a =>
    sampS (Fk .leaf) (Spec.corrLeafStream prims (seedOf rand 1) ctx nonce 1) fuel 0 3 >>= fun b => _) >>= _) = _
  cases hw0 : sampS (Fk .leaf) (Spec.corrLeafStream prims (seedOf rand 0) ctx nonce 0) fuel 0 3 with
  | error e => rfl
  | ok w0 =>
  simp only [Except.ok_bind']
  cases hw1 : sampS (Fk .leaf) (Spec.corrLeafStream prims (seedOf rand 1) ctx nonce 1) fuel 0 3 with
  | error e => rfl
  | ok w1 =>
  simp only [Except.ok_bind']
  have key := corrLoop_eq (bits := bits) (prims := prims) (fuel := fuel) hb
    (V := ⟨k1.1, k2.1, pair u0.1 u1.1, pair w0.1 w1.1⟩) lk1 (List.length_eq_one_iff.1 lk2).choose_spec
    (sampS_ok hu0).1 (sampS_ok hu1).1 (sampS_ok hw0).1 (sampS_ok hw1).1
    (turboInput (ssOf rand) tag nonce) k2.2 rfl rfl rfl bits le_rfl
  rw [hsh] at key
  rw [show (⟨turboInput (ssOf rand) tag nonce, k2.2⟩ : TurboShakeState) = X k2.2 by rw [hX]] at key
  erw [key]
  unfold pairsS
  cases hp : forFold (List.range bits) (k2.2, (⟨[], [], none⟩ : Poplar1.CorrState))
    (pairStep bits fuel (Spec.shardStream prims (ssOf rand) ctx nonce) (Vals.ab ⟨k1.1, k2.1, pair u0.1 u1.1, pair w0.1 w1.1⟩)) with
  | error e => rfl
  | ok c =>
  simp only [Except.ok_bind']
  obtain ⟨m0, m1, hleaf⟩ := pairsS_leaf hb hp
  obtain ⟨q, ⟨i0, i1, lf⟩⟩ := c
  dsimp only at hleaf
  subst hleaf
  rfl

end
end Vdaf.PO
