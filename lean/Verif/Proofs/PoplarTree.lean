import Verif.Proofs.StreamSample
import Verif.Proofs.Hiding
import Verif.Proofs.Drivers
import Verif.Spec.Poplar1Privacy

/-! The IDPF of Poplar1 as a function of streams: the tree of the corrupted Aggregator (the streams `Sb`), and the path
of the other one (the streams `Sj`). -/

set_option linter.unusedSectionVars false

namespace Vdaf.PO
open Spec (bytesAt idpfStream clearBit lowBit poplarIdpf levelKind)

abbrev Str := ℕ → UInt8

/-- The streams of the nodes: by level, usage and seed -/
abbrev Source := ℕ → ℕ → Bytes → Str

/-! ### One node -/

/-- One half of what a node is extended to -/
def half (s : Str) (bit : Bool) : Bytes := bytesAt s (if bit then 16 else 0) 16

def kidSeed (s : Str) (t bit : Bool) (cs : Bytes) : Bytes :=
  if t then xor (clearBit (half s bit)) cs else clearBit (half s bit)

def kidCtrl (s : Str) (t bit : Bool) (cc : Bool × Bool) : Bool :=
  if t then Bool.xor (lowBit (half s bit)) (Idpf.pick cc bit) else lowBit (half s bit)

def cwSeed (E e : Str) (bit : Bool) : Bytes := xor (clearBit (half E (!bit))) (clearBit (half e (!bit)))

def cwCtrl (E e : Str) (bit : Bool) : Bool × Bool :=
  (Bool.xor (Bool.xor (lowBit (half E false)) (lowBit (half e false))) (!bit),
    Bool.xor (Bool.xor (lowBit (half E true)) (lowBit (half e true))) bit)

theorem half_length (s : Str) (bit : Bool) : (half s bit).length = 16 := bytesAt_len _ _ _

theorem xor_len {a b : Bytes} {n : ℕ} (ha : a.length = n) (hb : b.length = n) : (xor a b).length = n := by
  simp [xor, ha, hb]

theorem kidSeed_length {s : Str} {t bit : Bool} {cs : Bytes} (h : cs.length = 16) : (kidSeed s t bit cs).length = 16 := by
  unfold kidSeed
  split
  · exact xor_len (by rw [clearBit_length, half_length]) h
  · rw [clearBit_length, half_length]

theorem cwSeed_length (E e : Str) (bit : Bool) : (cwSeed E e bit).length = 16 :=
  xor_len (by rw [clearBit_length, half_length]) (by rw [clearBit_length, half_length])

theorem xor_comm' (a b : Bytes) : xor a b = xor b a := by
  unfold xor
  rw [List.zipWith_comm]
  congr 1
  funext x y
  exact UInt8.xor_comm _ _

theorem cwSeed_comm (E e : Str) (bit : Bool) : cwSeed E e bit = cwSeed e E bit := xor_comm' _ _

theorem cwCtrl_comm (E e : Str) (bit : Bool) : cwCtrl E e bit = cwCtrl e E bit := by
  unfold cwCtrl
  rw [Bool.xor_comm (lowBit (half E false)), Bool.xor_comm (lowBit (half E true))]

/-- The control bits of the two Aggregators differ on the path. -/
theorem kidCtrl_other (E e : Str) (t bit : Bool) :
    kidCtrl e (!t) bit (cwCtrl E e bit) = !kidCtrl E t bit (cwCtrl E e bit) := by
  unfold kidCtrl cwCtrl Idpf.pick
  cases t <;> cases bit <;> simp <;> cases lowBit (half e _) <;> cases lowBit (half E _) <;> rfl

/-- What a node is extended to, as the code has it -/
theorem genKeep_eq (s : Str) (t bit : Bool) (cs : Bytes) (cc : Bool × Bool) :
    Idpf.genKeep (clearBit (bytesAt s 0 16), clearBit (bytesAt s 16 16)) (lowBit (bytesAt s 0 16), lowBit (bytesAt s 16 16))
      t bit cs cc = (kidSeed s t bit cs, kidCtrl s t bit cc) := by
  unfold Idpf.genKeep kidSeed kidCtrl half Idpf.pick
  cases t <;> cases bit <;> rfl

/-! ### The tree of one Aggregator -/

/-- The node at depth `ℓ` on the path along `p` -/
def path (S : Source) (cs : ℕ → Bytes) (cc : ℕ → Bool × Bool) (key : Bytes) (t : Bool) (p : ℕ → Bool) : ℕ → Bytes × Bool
  | 0 => (key, t)
  | ℓ + 1 =>
    let n := path S cs cc key t p ℓ
    (bytesAt (S ℓ 1 (kidSeed (S ℓ 0 n.1) n.2 (p ℓ) (cs ℓ))) 0 16, kidCtrl (S ℓ 0 n.1) n.2 (p ℓ) (cc ℓ))

/-- The seed from which the node at depth `ℓ + 1` is computed -/
def kid (S : Source) (cs : ℕ → Bytes) (cc : ℕ → Bool × Bool) (key : Bytes) (t : Bool) (p : ℕ → Bool) (ℓ : ℕ) : Bytes :=
  kidSeed (S ℓ 0 (path S cs cc key t p ℓ).1) (path S cs cc key t p ℓ).2 (p ℓ) (cs ℓ)

theorem path_succ (S : Source) (cs : ℕ → Bytes) (cc : ℕ → Bool × Bool) (key : Bytes) (t : Bool) (p : ℕ → Bool) (ℓ : ℕ) :
    path S cs cc key t p (ℓ + 1) = (bytesAt (S ℓ 1 (kid S cs cc key t p ℓ)) 0 16,
      kidCtrl (S ℓ 0 (path S cs cc key t p ℓ).1) (path S cs cc key t p ℓ).2 (p ℓ) (cc ℓ)) := rfl

theorem path_length {S : Source} {cs : ℕ → Bytes} {cc : ℕ → Bool × Bool} {key : Bytes} {t : Bool} {p : ℕ → Bool}
    (hk : key.length = 16) (ℓ : ℕ) : (path S cs cc key t p ℓ).1.length = 16 := by
  cases ℓ with
  | zero => exact hk
  | succ ℓ => exact bytesAt_len _ _ _

theorem kid_length {S : Source} {cs : ℕ → Bytes} {cc : ℕ → Bool × Bool} {key : Bytes} {t : Bool} {p : ℕ → Bool} {ℓ : ℕ}
    (h : (cs ℓ).length = 16) : (kid S cs cc key t p ℓ).length = 16 := kidSeed_length h

theorem half_congr {s s' : Str} (bit : Bool) (h : ∀ i < 32, s i = s' i) : half s bit = half s' bit :=
  bytesAt_agree fun i _ h2 => h i (by split at h2 <;> omega)

theorem kidSeed_congr {s s' : Str} {t bit : Bool} {cs : Bytes} (h : ∀ i < 32, s i = s' i) :
    kidSeed s t bit cs = kidSeed s' t bit cs := by
  unfold kidSeed; rw [half_congr bit h]

theorem kidCtrl_congr {s s' : Str} {t bit : Bool} {cc : Bool × Bool} (h : ∀ i < 32, s i = s' i) :
    kidCtrl s t bit cc = kidCtrl s' t bit cc := by
  unfold kidCtrl; rw [half_congr bit h]

/-- The sources `S` and `S'` agree below `N` on the path along `p`, up to level `L`. -/
def AgreeOn (N L : ℕ) (S S' : Source) (cs : ℕ → Bytes) (cc : ℕ → Bool × Bool) (key : Bytes) (t : Bool)
    (p : ℕ → Bool) : Prop :=
  ∀ ℓ < L, (∀ i < N, S ℓ 0 (path S cs cc key t p ℓ).1 i = S' ℓ 0 (path S cs cc key t p ℓ).1 i) ∧
    ∀ i < N, S ℓ 1 (kid S cs cc key t p ℓ) i = S' ℓ 1 (kid S cs cc key t p ℓ) i

theorem AgreeOn.path_eq {N L : ℕ} (hN : 32 ≤ N) {S S' : Source} {cs : ℕ → Bytes} {cc : ℕ → Bool × Bool} {key : Bytes} {t : Bool}
    {p : ℕ → Bool} (h : AgreeOn N L S S' cs cc key t p) :
    ∀ ℓ ≤ L, path S' cs cc key t p ℓ = path S cs cc key t p ℓ := by
  intro ℓ
  induction ℓ with
  | zero => exact fun _ => rfl
  | succ ℓ ih =>
    intro hl
    have e := ih (by omega)
    obtain ⟨h1, h2⟩ := h ℓ (by omega)
    have h3 : kid S' cs cc key t p ℓ = kid S cs cc key t p ℓ := by
      unfold kid
      rw [e]
      exact kidSeed_congr fun i hi => (h1 i (by omega)).symm
    rw [path_succ, path_succ, h3, e]
    congr 1
    · exact bytesAt_agree fun i _ hi => (h2 i (by omega)).symm
    · exact kidCtrl_congr fun i hi => (h1 i (by omega)).symm

theorem AgreeOn.kid_eq {N L : ℕ} (hN : 32 ≤ N) {S S' : Source} {cs : ℕ → Bytes} {cc : ℕ → Bool × Bool} {key : Bytes} {t : Bool}
    {p : ℕ → Bool} (h : AgreeOn N L S S' cs cc key t p) {ℓ : ℕ} (hl : ℓ < L) :
    kid S' cs cc key t p ℓ = kid S cs cc key t p ℓ := by
  unfold kid
  rw [h.path_eq hN ℓ (by omega)]
  exact kidSeed_congr fun i hi => ((h ℓ hl).1 i (by omega)).symm

/-! ### The code in terms of streams -/

section
variable {bits : ℕ} {prims : Prims} {fuel : ℕ} {ctx nonce : Bytes}

/-- The streams of the nodes for a report -/
def srcOf (prims : Prims) (bits : ℕ) (ctx nonce : Bytes) : Source := fun ℓ u x => idpfStream prims bits ℓ u x ctx nonce

theorem convert_sampS (hf : fuel < 2 ^ 120) (hc : Idpf.CtxOk ctx) (level : ℕ) {seed : Bytes} (hs : seed.length = 16) :
    (poplarIdpf bits).convert prims fuel level seed ctx nonce =
      (sampS (Fk (levelKind bits level)) (srcOf prims bits ctx nonce level 1 seed) fuel 16 2 >>= fun r =>
        .ok (bytesAt (srcOf prims bits ctx nonce level 1 seed) 0 16, r.1)) := by
  obtain ⟨at_, h1, h2⟩ := (poplarIdpf bits).currentXof_streams prims fuel level 1 nonce hs hc (16 + fuel * 32) (by omega)
  unfold Idpf.convert
  rw [formatDst_idpf (by decide)]
  simp only [Except.ok_bind', Idpf.KEY_SIZE]
  rw [show ([18, 1, 0, 0, 0, 0, 0, UInt8.ofNat 1] ++ ctx) = Spec.idpfTag 1 ctx from rfl, h1]
  simp only [Except.ok_bind']
  rw [h2 0 16 (by omega)]
  simp only [Except.ok_bind', Idpf.currentXof_fuel, Nat.zero_add]
  rw [nextVec_sampS h2 fuel 16 _ (by
    have := Nat.mul_le_mul_left fuel (Idpf.encSize_le ((poplarIdpf bits).currentField level)); omega)]
  unfold srcOf
  cases sampS (Fk (levelKind bits level)) (idpfStream prims bits level 1 seed ctx nonce) fuel 16 2 <;> rfl

/-- A value, corrected if the control bit is set -/
def fix {κ : Kind} (c : Bool) (w v : List (Fk κ)) : List (Fk κ) := if c then List.zipWith (· + ·) w v else w

theorem fix_length {κ : Kind} {c : Bool} {w v : List (Fk κ)} {n : ℕ} (hw : w.length = n) (hv : v.length = n) :
    (fix c w v).length = n := by
  unfold fix
  split
  · simp [hw, hv]
  · exact hw

theorem evalNext_sampS (hf : fuel < 2 ^ 120) (hc : Idpf.CtxOk ctx) {level : ℕ} {seed : Bytes} (hs : seed.length = 16)
    {ctrl bit : Bool} {cw : CorrectionWord} (hcs : cw.seedCw.length = 16) (hcw : 2 ≤ cw.wCw.2.length) {s s' : Str}
    (e1 : srcOf prims bits ctx nonce level 0 seed = s)
    (e2 : srcOf prims bits ctx nonce level 1 (kidSeed s ctrl bit cw.seedCw) = s') :
    (poplarIdpf bits).evalNext prims fuel seed ctrl cw level bit ctx nonce =
      (sampS (Fk (levelKind bits level)) s' fuel 16 2 >>= fun r =>
        .ok (bytesAt s' 0 16, kidCtrl s ctrl bit cw.ctrlCw,
          fix (kidCtrl s ctrl bit cw.ctrlCw) r.1 (castVec _ cw.wCw))) := by
  rw [Idpf.evalNext_eq, Idpf.extend_eq level nonce hs hc]
  simp only [Except.ok_bind', Idpf.child]
  rw [genKeep_eq, show idpfStream prims (poplarIdpf bits).bits level 0 seed ctx nonce = s from e1]
  unfold Idpf.finish
  dsimp only
  rw [convert_sampS hf hc level (kidSeed_length hcs), e2]
  cases hr : sampS (Fk (levelKind bits level)) s' fuel 16 2 with
  | error e => rfl
  | ok r =>
    simp only [Except.ok_bind']
    have hl := (sampS_ok hr).1
    unfold fix
    split
    · rw [Idpf.addLoop r.1 _ (by rw [castVec_length]; omega)]
      rfl
    · rfl

/-- Sampling the values at the levels below `ℓ` ends. -/
def chk (bits fuel : ℕ) (S : Source) (cs : ℕ → Bytes) (cc : ℕ → Bool × Bool) (key : Bytes) (t : Bool) (p : ℕ → Bool) : ℕ → Res Unit
  | 0 => .ok ()
  | ℓ + 1 => chk bits fuel S cs cc key t p ℓ >>= fun _ =>
      sampS (Fk (levelKind bits ℓ)) (S ℓ 1 (kid S cs cc key t p ℓ)) fuel 16 2 >>= fun _ => .ok ()

/-- The value at the prefix of length `level + 1` of `p` -/
def evalS (bits fuel : ℕ) (S : Source) (cs : ℕ → Bytes) (cc : ℕ → Bool × Bool) (key : Bytes) (t : Bool) (p : ℕ → Bool) (level : ℕ)
    (v : List (Fk (levelKind bits level))) : Res (List (Fk (levelKind bits level))) :=
  chk bits fuel S cs cc key t p level >>= fun _ =>
    sampS (Fk (levelKind bits level)) (S level 1 (kid S cs cc key t p level)) fuel 16 2 >>= fun r =>
      .ok (fix (path S cs cc key t p (level + 1)).2 r.1 v)

def csOf (pub : List CorrectionWord) (ℓ : ℕ) : Bytes := match pub[ℓ]? with | some cw => cw.seedCw | none => []
def ccOf (pub : List CorrectionWord) (ℓ : ℕ) : Bool × Bool := match pub[ℓ]? with | some cw => cw.ctrlCw | none => (false, false)
def vwOf (pub : List CorrectionWord) (ℓ : ℕ) (κ : Kind) : List (Fk κ) :=
  match pub[ℓ]? with | some cw => castVec κ cw.wCw | none => []
/-- A list of bits as a function -/
def bitOf (p : List Bool) (ℓ : ℕ) : Bool := p.getD ℓ false

theorem bitOf_eq {p : List Bool} {ℓ : ℕ} (h : ℓ < p.length) : p[ℓ] = bitOf p ℓ := by
  unfold bitOf
  rw [List.getD_eq_getElem?_getD, List.getElem?_eq_getElem h]
  rfl

theorem walk_chk (hf : fuel < 2 ^ 120) (hc : Idpf.CtxOk ctx) {pub : List CorrectionWord} (hpub : (poplarIdpf bits).Shaped pub)
    {key : Bytes} (hk : key.length = 16) (j : ℕ) (p : List Bool) (ℓ : ℕ) (hl : ℓ ≤ bits) (hp : ℓ ≤ p.length) :
    (poplarIdpf bits).walk prims fuel j pub key p ctx nonce ℓ =
      (chk bits fuel (srcOf prims bits ctx nonce) (csOf pub) (ccOf pub) key (decide (j ≠ 0)) (bitOf p) ℓ >>= fun _ =>
        .ok (path (srcOf prims bits ctx nonce) (csOf pub) (ccOf pub) key (decide (j ≠ 0)) (bitOf p) ℓ)) := by
  induction ℓ with
  | zero => rfl
  | succ ℓ ih =>
    rw [Idpf.walk_succ, ih (by omega) (by omega), chk]
    cases chk bits fuel (srcOf prims bits ctx nonce) (csOf pub) (ccOf pub) key (decide (j ≠ 0)) (bitOf p) ℓ with
    | error e => rfl
    | ok u =>
      have hi : ℓ < pub.length := by rw [hpub.1]; exact hl
      obtain ⟨h1, h2⟩ := hpub.2 _ (List.getElem_mem hi)
      have e1 : pub[ℓ].seedCw = csOf pub ℓ := by unfold csOf; rw [List.getElem?_eq_getElem hi]
      have e2 : pub[ℓ].ctrlCw = ccOf pub ℓ := by unfold ccOf; rw [List.getElem?_eq_getElem hi]
      simp only [Except.ok_bind', Idpf.evalStep]
      rw [getI_of_lt (show ℓ < p.length by omega), getI_of_lt hi]
      simp only [Except.ok_bind']
      rw [evalNext_sampS hf hc (path_length hk ℓ) h1 h2 rfl rfl, path_succ, e1, e2, bitOf_eq (by omega)]
      unfold kid
      cases sampS (Fk (levelKind bits ℓ)) _ fuel 16 2 <;> rfl

theorem evalPrefix_evalS (hf : fuel < 2 ^ 120) (hc : Idpf.CtxOk ctx) {pub : List CorrectionWord} (hpub : (poplarIdpf bits).Shaped pub)
    {key : Bytes} (hk : key.length = 16) (j : ℕ) {p : List Bool} {level : ℕ} (hl : level < bits) (hp : p.length = level + 1) :
    (poplarIdpf bits).evalPrefix prims fuel j pub key level ctx nonce p =
      (evalS bits fuel (srcOf prims bits ctx nonce) (csOf pub) (ccOf pub) key (decide (j ≠ 0)) (bitOf p) level
        (vwOf pub level _) >>= fun y => .ok (if j = 0 then y else vecNeg y)) := by
  rw [Idpf.evalPrefix_eq _ _ _ _ _ _ _ _ _ hp]
  unfold Idpf.evalRaw evalS
  rw [walk_chk hf hc hpub hk j p level hl.le (by omega)]
  cases chk bits fuel (srcOf prims bits ctx nonce) (csOf pub) (ccOf pub) key (decide (j ≠ 0)) (bitOf p) level with
  | error e => rfl
  | ok u =>
    have hi : level < pub.length := by rw [hpub.1]; exact hl
    obtain ⟨h1, h2⟩ := hpub.2 _ (List.getElem_mem hi)
    have e1 : pub[level].seedCw = csOf pub level := by unfold csOf; rw [List.getElem?_eq_getElem hi]
    have e2 : pub[level].ctrlCw = ccOf pub level := by unfold ccOf; rw [List.getElem?_eq_getElem hi]
    have e3 : castVec (levelKind bits level) pub[level].wCw = vwOf pub level _ := by
      unfold vwOf; rw [List.getElem?_eq_getElem hi]
    simp only [Except.ok_bind']
    rw [getI_of_lt (show level < p.length by omega), getI_of_lt hi]
    simp only [Except.ok_bind']
    rw [evalNext_sampS hf hc (path_length hk level) h1 h2 rfl rfl, path_succ, e1, e2, e3, bitOf_eq (by omega)]
    unfold kid
    cases sampS (Fk (levelKind bits level)) _ fuel 16 2 <;> rfl

/-! ### Agreement -/

theorem AgreeOn.chk_eq {N L : ℕ} (hN : 32 + 32 * fuel ≤ N) {S S' : Source} {cs : ℕ → Bytes} {cc : ℕ → Bool × Bool} {key : Bytes}
    {t : Bool} {p : ℕ → Bool} (h : AgreeOn N L S S' cs cc key t p) :
    ∀ ℓ ≤ L, chk bits fuel S' cs cc key t p ℓ = chk bits fuel S cs cc key t p ℓ := by
  intro ℓ
  induction ℓ with
  | zero => exact fun _ => rfl
  | succ ℓ ih =>
    intro hl
    rw [chk, chk, ih (by omega), h.kid_eq (by omega) (by omega), sampS_congr fun i _ hi => ((h ℓ (by omega)).2 i (by
      have := Nat.mul_le_mul_left fuel (Idpf.encSize_le (levelKind bits ℓ)); omega)).symm]

theorem AgreeOn.evalS_eq {N L : ℕ} (hN : 32 + 32 * fuel ≤ N) {S S' : Source} {cs : ℕ → Bytes} {cc : ℕ → Bool × Bool} {key : Bytes}
    {t : Bool} {p : ℕ → Bool} (h : AgreeOn N L S S' cs cc key t p) {level : ℕ} (hl : level < L)
    (v : List (Fk (levelKind bits level))) :
    evalS bits fuel S' cs cc key t p level v = evalS bits fuel S cs cc key t p level v := by
  unfold evalS
  rw [h.chk_eq hN level hl.le, h.kid_eq (by omega) hl, h.path_eq (by omega) _ hl,
    sampS_congr fun i _ hi => ((h level hl).2 i (by
      have := Nat.mul_le_mul_left fuel (Idpf.encSize_le (levelKind bits level)); omega)).symm]

/-- The path depends only on the bits and on the correction words used. -/
theorem path_congr {S : Source} {cs cs' : ℕ → Bytes} {cc cc' : ℕ → Bool × Bool} {key : Bytes} {t : Bool} {p p' : ℕ → Bool} {L : ℕ}
    (h : ∀ ℓ < L, cs ℓ = cs' ℓ ∧ cc ℓ = cc' ℓ ∧ p ℓ = p' ℓ) :
    ∀ ℓ ≤ L, path S cs cc key t p ℓ = path S cs' cc' key t p' ℓ := by
  intro ℓ
  induction ℓ with
  | zero => exact fun _ => rfl
  | succ ℓ ih =>
    intro hl
    obtain ⟨h1, h2, h3⟩ := h ℓ (by omega)
    unfold path
    rw [ih (by omega), h1, h2, h3]

theorem kid_congr {S : Source} {cs cs' : ℕ → Bytes} {cc cc' : ℕ → Bool × Bool} {key : Bytes} {t : Bool} {p p' : ℕ → Bool} {L : ℕ}
    (h : ∀ ℓ < L, cs ℓ = cs' ℓ ∧ cc ℓ = cc' ℓ ∧ p ℓ = p' ℓ) {ℓ : ℕ} (hl : ℓ < L) :
    kid S cs cc key t p ℓ = kid S cs' cc' key t p' ℓ := by
  obtain ⟨h1, h2, h3⟩ := h ℓ hl
  unfold kid
  rw [path_congr h ℓ hl.le, h1, h3]

end

/-! ### Generating the keys -/

section

/-- The two Aggregators on the path: the streams of the corrupted one and of the other one, the bits of the point, and the
two keys -/
structure Tree where
  b : ℕ
  alpha : ℕ → Bool
  Sb : Source
  Sj : Source
  keyb : Bytes
  keyj : Bytes

/-- The seed and the control bit of the corrupted Aggregator, and the seed of the other one, at depth `ℓ` -/
def Tree.st (T : Tree) : ℕ → Bytes × Bool × Bytes
  | 0 => (T.keyb, decide (T.b ≠ 0), T.keyj)
  | ℓ + 1 =>
    let n := T.st ℓ
    let E := T.Sb ℓ 0 n.1
    let e := T.Sj ℓ 0 n.2.2
    let cs := cwSeed E e (T.alpha ℓ)
    let cc := cwCtrl E e (T.alpha ℓ)
    (bytesAt (T.Sb ℓ 1 (kidSeed E n.2.1 (T.alpha ℓ) cs)) 0 16, kidCtrl E n.2.1 (T.alpha ℓ) cc,
      bytesAt (T.Sj ℓ 1 (kidSeed e (!n.2.1) (T.alpha ℓ) cs)) 0 16)

variable (T : Tree)

def Tree.E (ℓ : ℕ) : Str := T.Sb ℓ 0 (T.st ℓ).1
def Tree.e (ℓ : ℕ) : Str := T.Sj ℓ 0 (T.st ℓ).2.2
def Tree.cs (ℓ : ℕ) : Bytes := cwSeed (T.E ℓ) (T.e ℓ) (T.alpha ℓ)
def Tree.cc (ℓ : ℕ) : Bool × Bool := cwCtrl (T.E ℓ) (T.e ℓ) (T.alpha ℓ)
def Tree.xb (ℓ : ℕ) : Bytes := kidSeed (T.E ℓ) (T.st ℓ).2.1 (T.alpha ℓ) (T.cs ℓ)
def Tree.xj (ℓ : ℕ) : Bytes := kidSeed (T.e ℓ) (!(T.st ℓ).2.1) (T.alpha ℓ) (T.cs ℓ)

theorem Tree.st_succ (ℓ : ℕ) : T.st (ℓ + 1) = (bytesAt (T.Sb ℓ 1 (T.xb ℓ)) 0 16,
    kidCtrl (T.E ℓ) (T.st ℓ).2.1 (T.alpha ℓ) (T.cc ℓ), bytesAt (T.Sj ℓ 1 (T.xj ℓ)) 0 16) := rfl

theorem Tree.st_length (hb : T.keyb.length = 16) (hj : T.keyj.length = 16) (ℓ : ℕ) :
    (T.st ℓ).1.length = 16 ∧ (T.st ℓ).2.2.length = 16 := by
  cases ℓ with
  | zero => exact ⟨hb, hj⟩
  | succ ℓ => exact ⟨bytesAt_len _ _ _, bytesAt_len _ _ _⟩

theorem Tree.xb_length (ℓ : ℕ) : (T.xb ℓ).length = 16 := kidSeed_length (cwSeed_length _ _ _)
theorem Tree.xj_length (ℓ : ℕ) : (T.xj ℓ).length = 16 := kidSeed_length (cwSeed_length _ _ _)

/-- The corrupted Aggregator's nodes on the path -/
theorem Tree.st_path (ℓ : ℕ) :
    path T.Sb T.cs T.cc T.keyb (decide (T.b ≠ 0)) T.alpha ℓ = ((T.st ℓ).1, (T.st ℓ).2.1) := by
  induction ℓ with
  | zero => rfl
  | succ ℓ ih => rw [path_succ, T.st_succ]; unfold kid; rw [ih]; rfl

theorem Tree.xb_kid (ℓ : ℕ) : kid T.Sb T.cs T.cc T.keyb (decide (T.b ≠ 0)) T.alpha ℓ = T.xb ℓ := by
  unfold kid; rw [T.st_path]; rfl

/-- The value of the correction word -/
def wordVal {κ : Kind} (b : ℕ) (c : Bool) (beta w u : List (Fk κ)) : List (Fk κ) :=
  signed (if b = 0 then !c else c) (List.zipWith (· + ·) (List.zipWith (· - ·) beta (if b = 0 then w else u)) (if b = 0 then u else w))

/-- The correction word of a level -/
def Tree.word (fuel : ℕ) (κ : Kind) (beta : List (Fk κ)) (ℓ : ℕ) : Res CorrectionWord :=
  sampS (Fk κ) (T.Sb ℓ 1 (T.xb ℓ)) fuel 16 2 >>= fun wb => sampS (Fk κ) (T.Sj ℓ 1 (T.xj ℓ)) fuel 16 2 >>= fun wj =>
    .ok ⟨T.cs ℓ, T.cc ℓ, ⟨κ, wordVal T.b (T.st (ℓ + 1)).2.1 beta wb.1 wj.1⟩⟩

/-- The public share -/
def Tree.pub (fuel bits : ℕ) (beta : (ℓ : ℕ) → List (Fk (levelKind bits ℓ))) : Res (List CorrectionWord) :=
  mapRes (fun ℓ => T.word fuel _ (beta ℓ) ℓ) (List.range bits)

/-- A pair in the order of the Aggregators -/
def ord {α : Type} (b : ℕ) (x y : α) : α × α := if b = 0 then (x, y) else (y, x)

variable {bits : ℕ} {prims : Prims} {fuel : ℕ} {ctx nonce : Bytes}

theorem genLevel_word (hf : fuel < 2 ^ 120) (hc : Idpf.CtxOk ctx) {alpha : List Bool} {bi : List (List Field64)} {bl : List Field255}
    (hi : bi.length = bits - 1) (hib : ∀ x ∈ bi, x.length = 2) (hl : bl.length = 2) {T : Tree} (hb : T.b = 0 ∨ T.b = 1)
    (h1 : T.Sb = srcOf prims bits ctx nonce) (h2 : T.Sj = srcOf prims bits ctx nonce) (h3 : T.alpha = bitOf alpha)
    (hkb : T.keyb.length = 16) (hkj : T.keyj.length = 16) {ℓ : ℕ} (hℓ : ℓ < alpha.length) (pub : List CorrectionWord) :
    (poplarIdpf bits).genLevel prims fuel alpha bi bl ctx nonce
      ⟨ord T.b (T.st ℓ).1 (T.st ℓ).2.2, ord T.b (T.st ℓ).2.1 (!(T.st ℓ).2.1), pub⟩ ℓ =
    (T.word fuel (levelKind bits ℓ) (Idpf.betaFun bi bl ℓ _) ℓ >>= fun cw =>
      .ok ⟨ord T.b (T.st (ℓ + 1)).1 (T.st (ℓ + 1)).2.2, ord T.b (T.st (ℓ + 1)).2.1 (!(T.st (ℓ + 1)).2.1), pub ++ [cw]⟩) := by
  obtain ⟨hs1, hs2⟩ := T.st_length hkb hkj ℓ
  obtain ⟨b1, b2⟩ := Idpf.betaAt_ok (I := poplarIdpf bits) hi hib hl ℓ
  have ha : T.alpha ℓ = alpha[ℓ] := by rw [h3, bitOf_eq hℓ]
  have eE : idpfStream prims bits ℓ 0 (T.st ℓ).1 ctx nonce = T.E ℓ := by unfold Tree.E; rw [h1]; rfl
  have ee : idpfStream prims bits ℓ 0 (T.st ℓ).2.2 ctx nonce = T.e ℓ := by unfold Tree.e; rw [h2]; rfl
  have hcs : cwSeed (T.E ℓ) (T.e ℓ) (T.alpha ℓ) = T.cs ℓ := rfl
  have hcc : cwCtrl (T.E ℓ) (T.e ℓ) (T.alpha ℓ) = T.cc ℓ := rfl
  have hxb : kidSeed (T.E ℓ) (T.st ℓ).2.1 (T.alpha ℓ) (T.cs ℓ) = T.xb ℓ := rfl
  have hxj : kidSeed (T.e ℓ) (!(T.st ℓ).2.1) (T.alpha ℓ) (T.cs ℓ) = T.xj ℓ := rfl
  have hcb : kidCtrl (T.E ℓ) (T.st ℓ).2.1 (T.alpha ℓ) (T.cc ℓ) = (T.st (ℓ + 1)).2.1 := rfl
  have hcj : kidCtrl (T.e ℓ) (!(T.st ℓ).2.1) (T.alpha ℓ) (T.cc ℓ) = !(T.st (ℓ + 1)).2.1 := kidCtrl_other _ _ _ _
  have sb : srcOf prims bits ctx nonce ℓ 1 (T.xb ℓ) = T.Sb ℓ 1 (T.xb ℓ) := by rw [h1]
  have sj : srcOf prims bits ctx nonce ℓ 1 (T.xj ℓ) = T.Sj ℓ 1 (T.xj ℓ) := by rw [h2]
  have fb := fun e => sampS_fuel (F := Fk (levelKind bits ℓ)) (s := T.Sb ℓ 1 (T.xb ℓ)) (fuel := fuel) (pos := 16) (n := 2) (e := e)
  have fj := fun e => sampS_fuel (F := Fk (levelKind bits ℓ)) (s := T.Sj ℓ 1 (T.xj ℓ)) (fuel := fuel) (pos := 16) (n := 2) (e := e)
  have lb := fun v p => sampS_ok (F := Fk (levelKind bits ℓ)) (s := T.Sb ℓ 1 (T.xb ℓ)) (fuel := fuel) (pos := 16) (n := 2) (v := v) (p := p)
  have lj := fun v p => sampS_ok (F := Fk (levelKind bits ℓ)) (s := T.Sj ℓ 1 (T.xj ℓ)) (fuel := fuel) (pos := 16) (n := 2) (v := v) (p := p)
  unfold Idpf.genLevel Tree.word
  rw [getI_of_lt hℓ, ← ha]
  simp only [Except.ok_bind']
  rcases hb with hb | hb
  · simp only [ord, hb, if_pos]
    rw [Idpf.extend_eq ℓ nonce hs1 hc, Idpf.extend_eq ℓ nonce hs2 hc]
    simp only [Except.ok_bind']
    rw [eE, ee]
    have hcs' : xor (Idpf.pick (clearBit (bytesAt (T.E ℓ) 0 16), clearBit (bytesAt (T.E ℓ) 16 16)) (!T.alpha ℓ))
        (Idpf.pick (clearBit (bytesAt (T.e ℓ) 0 16), clearBit (bytesAt (T.e ℓ) 16 16)) (!T.alpha ℓ)) = T.cs ℓ := by
      rw [← hcs]; unfold cwSeed half Idpf.pick; cases T.alpha ℓ <;> rfl
    rw [hcs', genKeep_eq, genKeep_eq]
    change ((poplarIdpf bits).convert prims fuel ℓ (kidSeed (T.E ℓ) (T.st ℓ).2.1 (T.alpha ℓ) (T.cs ℓ)) ctx nonce >>= fun r =>
      (poplarIdpf bits).convert prims fuel ℓ (kidSeed (T.e ℓ) (!(T.st ℓ).2.1) (T.alpha ℓ) (T.cs ℓ)) ctx nonce >>= _) = _
    rw [hxb, hxj, convert_sampS hf hc ℓ (T.xb_length ℓ), convert_sampS hf hc ℓ (T.xj_length ℓ), sb, sj]
    cases hwb : sampS (Fk (levelKind bits ℓ)) (T.Sb ℓ 1 (T.xb ℓ)) fuel 16 2 with
    | error e => rfl
    | ok wb =>
      cases hwj : sampS (Fk (levelKind bits ℓ)) (T.Sj ℓ 1 (T.xj ℓ)) fuel 16 2 with
      | error e => rfl
      | ok wj =>
        simp only [Except.ok_bind']
        rw [b1]
        simp only [Except.ok_bind']
        have l1 := (lb _ _ hwb).1
        have l2 := (lj _ _ hwj).1
        rw [raiseIf_of_not (by simp [b2])]
        simp only [Except.ok_bind']
        unfold vecSub
        rw [if_neg (by rw [b2, l1]; simp)]
        simp only [Except.ok_bind']
        unfold vecAdd
        rw [if_neg (by simp [b2, l1, l2])]
        simp only [Except.ok_bind', Except.pure_eq', Except.ok.injEq]
        rw [T.st_succ]
        have hcc' : (Bool.xor (Bool.xor (lowBit (bytesAt (T.E ℓ) 0 16)) (lowBit (bytesAt (T.e ℓ) 0 16))) (!T.alpha ℓ),
            Bool.xor (Bool.xor (lowBit (bytesAt (T.E ℓ) 16 16)) (lowBit (bytesAt (T.e ℓ) 16 16))) (T.alpha ℓ)) = T.cc ℓ := rfl
        rw [hcc', hcj, hcb]
        unfold wordVal signed
        simp only [if_true]
  · simp only [ord, hb, one_ne_zero, if_false]
    rw [Idpf.extend_eq ℓ nonce hs1 hc, Idpf.extend_eq ℓ nonce hs2 hc]
    simp only [Except.ok_bind']
    rw [eE, ee]
    have hcs' : xor (Idpf.pick (clearBit (bytesAt (T.e ℓ) 0 16), clearBit (bytesAt (T.e ℓ) 16 16)) (!T.alpha ℓ))
        (Idpf.pick (clearBit (bytesAt (T.E ℓ) 0 16), clearBit (bytesAt (T.E ℓ) 16 16)) (!T.alpha ℓ)) = T.cs ℓ := by
      rw [← hcs, cwSeed_comm]; unfold cwSeed half Idpf.pick; cases T.alpha ℓ <;> rfl
    rw [hcs', genKeep_eq, genKeep_eq]
    change ((poplarIdpf bits).convert prims fuel ℓ (kidSeed (T.e ℓ) (!(T.st ℓ).2.1) (T.alpha ℓ) (T.cs ℓ)) ctx nonce >>= fun r =>
      (poplarIdpf bits).convert prims fuel ℓ (kidSeed (T.E ℓ) (T.st ℓ).2.1 (T.alpha ℓ) (T.cs ℓ)) ctx nonce >>= _) = _
    rw [hxb, hxj, convert_sampS hf hc ℓ (T.xb_length ℓ), convert_sampS hf hc ℓ (T.xj_length ℓ), sb, sj]
    cases hwb : sampS (Fk (levelKind bits ℓ)) (T.Sb ℓ 1 (T.xb ℓ)) fuel 16 2 with
    | error e =>
      cases hwj : sampS (Fk (levelKind bits ℓ)) (T.Sj ℓ 1 (T.xj ℓ)) fuel 16 2 with
      | error e' =>
        rw [fb e hwb, fj e' hwj]
        rfl
      | ok wj => rfl
    | ok wb =>
      cases hwj : sampS (Fk (levelKind bits ℓ)) (T.Sj ℓ 1 (T.xj ℓ)) fuel 16 2 with
      | error e => rfl
      | ok wj =>
        simp only [Except.ok_bind']
        rw [b1]
        simp only [Except.ok_bind']
        have l1 := (lb _ _ hwb).1
        have l2 := (lj _ _ hwj).1
        rw [raiseIf_of_not (by simp [b2])]
        simp only [Except.ok_bind']
        unfold vecSub
        rw [if_neg (by rw [b2, l2]; simp)]
        simp only [Except.ok_bind']
        unfold vecAdd
        rw [if_neg (by simp [b2, l1, l2])]
        simp only [Except.ok_bind', Except.pure_eq', Except.ok.injEq]
        have hcc' : (Bool.xor (Bool.xor (lowBit (bytesAt (T.e ℓ) 0 16)) (lowBit (bytesAt (T.E ℓ) 0 16))) (!T.alpha ℓ),
            Bool.xor (Bool.xor (lowBit (bytesAt (T.e ℓ) 16 16)) (lowBit (bytesAt (T.E ℓ) 16 16))) (T.alpha ℓ)) = T.cc ℓ :=
          (cwCtrl_comm _ _ _).symm.trans hcc
        rw [T.st_succ, hcc', hcj, hcb]
        unfold wordVal signed
        simp only [one_ne_zero, if_false]

theorem gen_pub (hf : fuel < 2 ^ 120) (hc : Idpf.CtxOk ctx) {alpha : List Bool} (ha : alpha.length = bits)
    {bi : List (List Field64)} {bl : List Field255}
    (hi : bi.length = bits - 1) (hib : ∀ x ∈ bi, x.length = 2) (hl : bl.length = 2) (hn : nonce.length = 16) {rand : Bytes}
    (hr : rand.length = 32) {T : Tree} (hb : T.b = 0 ∨ T.b = 1)
    (h1 : T.Sb = srcOf prims bits ctx nonce) (h2 : T.Sj = srcOf prims bits ctx nonce) (h3 : T.alpha = bitOf alpha)
    (h4 : ord T.b T.keyb T.keyj = (rand.take 16, rand.drop 16)) :
    (poplarIdpf bits).gen prims fuel alpha bi bl ctx nonce rand =
      (T.pub fuel bits (fun ℓ => Idpf.betaFun bi bl ℓ _) >>= fun pub => .ok (pub, [rand.take 16, rand.drop 16])) := by
  have hk : T.keyb.length = 16 ∧ T.keyj.length = 16 := by
    unfold ord at h4
    split at h4
    · obtain ⟨e1, e2⟩ := Prod.mk.inj h4
      rw [e1, e2]
      simp [hr]
    · obtain ⟨e1, e2⟩ := Prod.mk.inj h4
      rw [e1, e2]
      simp [hr]
  have key : ∀ n ≤ bits, forFold (List.range n) ⟨(rand.take 16, rand.drop 16), (false, true), []⟩
      ((poplarIdpf bits).genLevel prims fuel alpha bi bl ctx nonce) =
      (mapRes (fun ℓ => T.word fuel (levelKind bits ℓ) (Idpf.betaFun bi bl ℓ _) ℓ) (List.range n) >>= fun pub =>
        .ok (⟨ord T.b (T.st n).1 (T.st n).2.2, ord T.b (T.st n).2.1 (!(T.st n).2.1), pub⟩ : Idpf.GenState)) := by
    intro n
    induction n with
    | zero =>
      intro _
      rw [List.range_zero, forFold_nil, mapRes_nil]
      simp only [Except.ok_bind', Except.ok.injEq]
      congr 1
      · exact h4.symm
      · unfold ord Tree.st
        rcases hb with hb | hb <;> simp [hb]
    | succ n ih =>
      intro hn
      rw [List.range_succ, forFold_append, mapRes_append, ih (by omega)]
      cases mapRes (fun ℓ => T.word fuel (levelKind bits ℓ) (Idpf.betaFun bi bl ℓ _) ℓ) (List.range n) with
      | error e => rfl
      | ok pub =>
        simp only [Except.ok_bind', forFold_cons, forFold_nil, mapRes_cons, mapRes_nil]
        rw [genLevel_word hf hc hi hib hl hb h1 h2 h3 hk.1 hk.2 (by omega) pub]
        cases T.word fuel (levelKind bits n) (Idpf.betaFun bi bl n _) n <;> rfl
  unfold Idpf.gen
  rw [raiseIf_of_not (by simpa using ha), raiseIf_of_not (by simpa using hi), raiseIf_of_not (by simpa [Idpf.RAND_SIZE, Idpf.KEY_SIZE] using hr),
    raiseIf_of_not (by simpa [Idpf.NONCE_SIZE] using hn)]
  simp only [Except.ok_bind']
  rw [key bits le_rfl]
  unfold Tree.pub
  cases mapRes (fun ℓ => T.word fuel (levelKind bits ℓ) (Idpf.betaFun bi bl ℓ _) ℓ) (List.range bits) <;> rfl

/-! ### Two trees that agree -/

/-- The streams of the trees agree below `N` on the path of `T`. -/
structure Tree.Agrees (N bits : ℕ) (T T' : Tree) : Prop where
  b : T'.b = T.b
  alpha : T'.alpha = T.alpha
  keyb : T'.keyb = T.keyb
  keyj : T'.keyj = T.keyj
  E : ∀ ℓ < bits, ∀ i < N, T'.Sb ℓ 0 (T.st ℓ).1 i = T.Sb ℓ 0 (T.st ℓ).1 i
  e : ∀ ℓ < bits, ∀ i < N, T'.Sj ℓ 0 (T.st ℓ).2.2 i = T.Sj ℓ 0 (T.st ℓ).2.2 i
  xb : ∀ ℓ < bits, ∀ i < N, T'.Sb ℓ 1 (T.xb ℓ) i = T.Sb ℓ 1 (T.xb ℓ) i
  xj : ∀ ℓ < bits, ∀ i < N, T'.Sj ℓ 1 (T.xj ℓ) i = T.Sj ℓ 1 (T.xj ℓ) i

theorem cwSeed_congr {E E' e e' : Str} (bit : Bool) (h1 : ∀ i < 32, E i = E' i) (h2 : ∀ i < 32, e i = e' i) :
    cwSeed E e bit = cwSeed E' e' bit := by
  unfold cwSeed; rw [half_congr _ h1, half_congr _ h2]

theorem cwCtrl_congr {E E' e e' : Str} (bit : Bool) (h1 : ∀ i < 32, E i = E' i) (h2 : ∀ i < 32, e i = e' i) :
    cwCtrl E e bit = cwCtrl E' e' bit := by
  unfold cwCtrl; rw [half_congr _ h1, half_congr _ h2, half_congr _ h1, half_congr _ h2]

variable {T T' : Tree} {N : ℕ}

theorem Tree.Agrees.level (h : T.Agrees N bits T') (hN : 32 ≤ N) {ℓ : ℕ} (hl : ℓ < bits) (hs : T'.st ℓ = T.st ℓ) :
    T'.cs ℓ = T.cs ℓ ∧ T'.cc ℓ = T.cc ℓ ∧ T'.xb ℓ = T.xb ℓ ∧ T'.xj ℓ = T.xj ℓ ∧ T'.st (ℓ + 1) = T.st (ℓ + 1) := by
  have hE : ∀ i < 32, T'.E ℓ i = T.E ℓ i := fun i hi => by
    unfold Tree.E; rw [hs]; exact h.E ℓ hl i (by omega)
  have he : ∀ i < 32, T'.e ℓ i = T.e ℓ i := fun i hi => by
    unfold Tree.e; rw [hs]; exact h.e ℓ hl i (by omega)
  have h1 : T'.cs ℓ = T.cs ℓ := by unfold Tree.cs; rw [h.alpha]; exact cwSeed_congr _ hE he
  have h2 : T'.cc ℓ = T.cc ℓ := by unfold Tree.cc; rw [h.alpha]; exact cwCtrl_congr _ hE he
  have h3 : T'.xb ℓ = T.xb ℓ := by unfold Tree.xb; rw [h.alpha, hs, h1]; exact kidSeed_congr hE
  have h4 : T'.xj ℓ = T.xj ℓ := by unfold Tree.xj; rw [h.alpha, hs, h1]; exact kidSeed_congr he
  refine ⟨h1, h2, h3, h4, ?_⟩
  rw [Tree.st_succ, Tree.st_succ, h3, h4, h.alpha, hs, h2, kidCtrl_congr hE,
    bytesAt_agree fun i _ hi => h.xb ℓ hl i (by omega), bytesAt_agree fun i _ hi => h.xj ℓ hl i (by omega)]

theorem Tree.Agrees.st (h : T.Agrees N bits T') (hN : 32 ≤ N) : ∀ ℓ ≤ bits, T'.st ℓ = T.st ℓ := by
  intro ℓ
  induction ℓ with
  | zero => intro _; unfold Tree.st; rw [h.b, h.keyb, h.keyj]
  | succ ℓ ih => exact fun hl => (h.level hN (by omega) (ih (by omega))).2.2.2.2

theorem Tree.Agrees.pub (h : T.Agrees N bits T') (hN : 32 + 32 * fuel ≤ N) (beta : (ℓ : ℕ) → List (Fk (levelKind bits ℓ))) :
    T'.pub fuel bits beta = T.pub fuel bits beta := by
  unfold Tree.pub
  apply mapRes_congr
  intro ℓ hl
  rw [List.mem_range] at hl
  obtain ⟨h1, h2, h3, h4, h5⟩ := h.level (by omega) hl (h.st (by omega) ℓ hl.le)
  have hs := Nat.mul_le_mul_left fuel (Idpf.encSize_le (levelKind bits ℓ))
  unfold Tree.word
  rw [h1, h2, h3, h4, h5, h.b, sampS_congr fun i _ hi => h.xb ℓ hl i (by omega),
    sampS_congr fun i _ hi => h.xj ℓ hl i (by omega)]

/-! ### The public share -/

theorem Tree.pub_ok {beta : (ℓ : ℕ) → List (Fk (levelKind bits ℓ))} {pub : List CorrectionWord} :
    T.pub fuel bits beta = .ok pub ↔ pub.length = bits ∧ ∀ ℓ < bits, ∃ cw, pub[ℓ]? = some cw ∧
      T.word fuel _ (beta ℓ) ℓ = .ok cw := by
  unfold Tree.pub
  rw [mapRes_range_iff]
  refine and_congr Iff.rfl (forall_congr' fun ℓ => forall_congr' fun _ => ?_)
  exact ⟨fun ⟨cw, h1, h2⟩ => ⟨cw, h2, h1⟩, fun ⟨cw, h1, h2⟩ => ⟨cw, h2, h1⟩⟩

/-- A correction word in terms of the samples -/
theorem Tree.word_ok {κ : Kind} {beta : List (Fk κ)} {ℓ : ℕ} {cw : CorrectionWord} :
    T.word fuel κ beta ℓ = .ok cw ↔ ∃ wb wj, sampS (Fk κ) (T.Sb ℓ 1 (T.xb ℓ)) fuel 16 2 = .ok wb ∧
      sampS (Fk κ) (T.Sj ℓ 1 (T.xj ℓ)) fuel 16 2 = .ok wj ∧
      cw = ⟨T.cs ℓ, T.cc ℓ, ⟨κ, wordVal T.b (T.st (ℓ + 1)).2.1 beta wb.1 wj.1⟩⟩ := by
  unfold Tree.word
  constructor
  · intro h
    obtain ⟨wb, h1, h⟩ := Except.bind_eq_ok.1 h
    obtain ⟨wj, h2, h⟩ := Except.bind_eq_ok.1 h
    exact ⟨wb, wj, h1, h2, (Except.ok.inj h).symm⟩
  · rintro ⟨wb, wj, h1, h2, rfl⟩
    rw [h1, h2]
    rfl

theorem wordVal_length {κ : Kind} {b : ℕ} {c : Bool} {beta w u : List (Fk κ)} {n : ℕ} (h1 : beta.length = n) (h2 : w.length = n)
    (h3 : u.length = n) : (wordVal b c beta w u).length = n := by
  unfold wordVal
  rw [signed_length]
  split <;> simp [h1, h2, h3]

theorem Tree.pub_words {beta : (ℓ : ℕ) → List (Fk (levelKind bits ℓ))} {pub : List CorrectionWord}
    (h : T.pub fuel bits beta = .ok pub) {ℓ : ℕ} (hl : ℓ < bits) :
    csOf pub ℓ = T.cs ℓ ∧ ccOf pub ℓ = T.cc ℓ ∧ ∃ wb wj, sampS (Fk (levelKind bits ℓ)) (T.Sb ℓ 1 (T.xb ℓ)) fuel 16 2 = .ok wb ∧
      sampS (Fk (levelKind bits ℓ)) (T.Sj ℓ 1 (T.xj ℓ)) fuel 16 2 = .ok wj ∧
      vwOf pub ℓ (levelKind bits ℓ) = wordVal T.b (T.st (ℓ + 1)).2.1 (beta ℓ) wb.1 wj.1 := by
  obtain ⟨cw, h1, h2⟩ := (T.pub_ok.1 h).2 ℓ hl
  obtain ⟨wb, wj, h3, h4, rfl⟩ := T.word_ok.1 h2
  unfold csOf ccOf vwOf
  rw [h1]
  exact ⟨rfl, rfl, wb, wj, h3, h4, castVec_self _⟩

theorem Tree.pub_shaped {beta : (ℓ : ℕ) → List (Fk (levelKind bits ℓ))} (hbeta : ∀ ℓ < bits, (beta ℓ).length = 2)
    {pub : List CorrectionWord} (h : T.pub fuel bits beta = .ok pub) : (poplarIdpf bits).Shaped pub := by
  have hp := T.pub_ok.1 h
  refine ⟨hp.1, fun cw hcw => ?_⟩
  obtain ⟨ℓ, hl, rfl⟩ := List.mem_iff_getElem.1 hcw
  obtain ⟨cw, h1, h2⟩ := hp.2 ℓ (by rw [← hp.1]; exact hl)
  rw [List.getElem?_eq_getElem hl, Option.some.injEq] at h1
  rw [h1]
  obtain ⟨wb, wj, h3, h4, rfl⟩ := T.word_ok.1 h2
  exact ⟨cwSeed_length _ _ _, (wordVal_length (hbeta ℓ (by rw [← hp.1]; exact hl)) (sampS_ok h3).1 (sampS_ok h4).1).ge⟩

/-- The nodes of the corrupted Aggregator on the path, from the public share -/
theorem Tree.pub_path {beta : (ℓ : ℕ) → List (Fk (levelKind bits ℓ))} {pub : List CorrectionWord}
    (h : T.pub fuel bits beta = .ok pub) {ℓ : ℕ} (hl : ℓ ≤ bits) (p : ℕ → Bool) :
    path T.Sb (csOf pub) (ccOf pub) T.keyb (decide (T.b ≠ 0)) p ℓ = path T.Sb T.cs T.cc T.keyb (decide (T.b ≠ 0)) p ℓ :=
  path_congr (fun _ hl => ⟨(T.pub_words h hl).1, (T.pub_words h hl).2.1, rfl⟩) ℓ hl

theorem Tree.pub_kid {beta : (ℓ : ℕ) → List (Fk (levelKind bits ℓ))} {pub : List CorrectionWord}
    (h : T.pub fuel bits beta = .ok pub) {ℓ : ℕ} (hl : ℓ < bits) (p : ℕ → Bool) :
    kid T.Sb (csOf pub) (ccOf pub) T.keyb (decide (T.b ≠ 0)) p ℓ = kid T.Sb T.cs T.cc T.keyb (decide (T.b ≠ 0)) p ℓ :=
  kid_congr (fun _ hl => ⟨(T.pub_words h hl).1, (T.pub_words h hl).2.1, rfl⟩) hl

end
end Vdaf.PO
